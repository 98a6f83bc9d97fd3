import Verif.Vector.Props

/- `resize_and_overwrite`, `append_and_overwrite` and `block_append_from`. -/

namespace Verif.Vector
open Cxx

variable {α σ : Type}

/-- `resize_and_overwrite( n, operation )`, vector.h 829-850 and 855-877.  The operation gets the first `n` cells
of the block and returns what it made of them, its result, and (for `block_append_from`) the state of
its captured variables; changing other cells is undefined behaviour of the operation itself.  The
assertion aborts.  Result: `none` if `reserve` threw. -/
def Vec.resizeAndOverwrite (env : Env) (v : Vec α) (n : Nat) (op : Mem α → Cxx (Mem α × Int × σ)) :
    Cxx (Option (Int × σ) × Vec α) := do
  let (ok, v) ← (if v.cap < n then v.reserve env n else pure (true, v) : Cxx (Bool × Vec α))
  if ok then do
    let (cells, result, st) ← op (v.mem.take n)
    if cells.length ≠ n then ub
    else if result.toNat > n then abort
    else do
      let v := { v with mem := cells ++ v.mem.drop n }
      let v ← (if result.toNat < n then v.destructAtEnd result.toNat else pure v : Cxx (Vec α))
      pure (some (result, st), { v with last := result.toNat })
  else pure (none, v)

/-- `append_and_overwrite( n, operation )`, vector.h 881-900 and 904-924: as `resizeAndOverwrite`, the operation gets
the `n` cells behind the elements. -/
def Vec.appendAndOverwrite (env : Env) (v : Vec α) (n : Nat) (op : Mem α → Cxx (Mem α × Int)) :
    Cxx (Option Int × Vec α) := do
  let (ok, v) ← (if v.cap < add64 v.size n then v.reserve env (add64 v.size n) else pure (true, v) :
    Cxx (Bool × Vec α))
  if ok then do
    let (cells, result) ← op ((v.mem.drop v.last).take n)
    if cells.length ≠ n then ub
    else if result.toNat > n then abort
    else pure (some result, { v with mem := v.mem.take v.last ++ cells ++ v.mem.drop (v.last + n),
                                     last := v.last + result.toNat })
  else pure (none, v)

/-- The loop inside of the operation of `block_append_from`, vector.h 1323-1327: `cur_size` does not change in
it.  Result: the cells and what is left of the source. -/
def blockInner (cur sz : Nat) (cells : Mem α) (ptr : Nat) : List α → Cxx (Mem α × List α)
  | [] => pure (cells, [])
  | a :: src =>
    if cur < sz then do
      let cells ← assignAt cells ptr (.live a)
      blockInner cur sz cells (ptr + 1) src
    else pure (cells, a :: src)

/-- The operation of `block_append_from`, vector.h 1320-1329: its captured variables are `cur_size` and
`first`. -/
def blockOp (block cur sz : Nat) (src : List α) (cells : Mem α) : Cxx (Mem α × Int × (Nat × List α)) := do
  let ptr := cur
  let cur := add64 cur block
  let (cells, src) ← blockInner cur sz cells ptr src
  pure (cells, (cur : Int), (cur, src))

/-- `block_append_from( v, first, last, block_size )`, vector.h 1312-1331, from line 1318 on.
Result: `false` if it left by an exception. -/
def blockLoop (env : Env) (block : Nat) (src : List α) (v : Vec α) (cur : Nat) : Cxx (Bool × Vec α) :=
  match src with
  | [] => pure (true, v)
  | a :: rest => do
    let (r, v) ← v.resizeAndOverwrite env (add64 cur block) (blockOp block cur (add64 cur block) (a :: rest))
    match r with
    | none => pure (false, v)
    | some (_, cur, src) => blockLoop env block src v cur
partial_fixpoint

/-- `block_append_from`, vector.h 1312-1331. -/
def blockAppend (env : Env) (block : Nat) (src : List α) (v : Vec α) : Cxx (Bool × Vec α) :=
  blockLoop env block src v v.size

/-! ### `resize_and_overwrite` -/

/-- Destroying down to a position above the end runs below the block. -/
theorem destructAtEnd_above (newLast : Nat) : ∀ (last : Nat) (m : Mem α), last < newLast →
    destructAtEnd m newLast last = ub := by
  intro last
  induction last with
  | zero => intro m h; rw [destructAtEnd, if_neg (by omega)]
  | succ last ih =>
    intro m h
    rw [destructAtEnd, if_neg (by omega)]
    unfold destroy
    split
    · rw [pure_bind]; exact ih _ (by omega)
    · rw [pure_bind]; exact ih _ (by omega)
    · rfl

/-- The vector with capacity for `n`, where `resize_and_overwrite` and `append_and_overwrite` start. -/
theorem reserve_for (env : Env) {v : Vec α} {xs : List α} (h : Rep v xs) (n : Nat) :
    (∃ v', (if v.cap < n then v.reserve env n else pure (true, v) : Cxx (Bool × Vec α)) = pure (true, v') ∧ Rep v' xs ∧
      n ≤ v'.cap ∧ v.cap ≤ v'.cap) ∨
    (v.cap < n ∧ (env.maxSize < n ∨ env.canAlloc n = false) ∧
      (if v.cap < n then v.reserve env n else pure (true, v) : Cxx (Bool × Vec α)) = pure (false, v)) := by
  by_cases hc : v.cap < n
  · rw [if_pos hc]
    rcases Vec.reserve_spec env h n with ⟨hn, e⟩ | ⟨hn, _, _, v', e, hr, hc'⟩ | ⟨hn, hf, e⟩
    · omega
    · exact .inl ⟨v', e, hr, by omega, by omega⟩
    · exact .inr ⟨hn, hf, e⟩
  · rw [if_neg hc]
    exact .inl ⟨v, rfl, h, by omega, by omega⟩

/-- C08, violated: if the operation reports more than the old size and less than `n`, the call destroys objects
below the block.  For every vector, every `n` and every operation. -/
theorem C08_resize_and_overwrite_violated (env : Env) {v : Vec α} {xs : List α} (h : Rep v xs) {n : Nat}
    {op : Mem α → Cxx (Mem α × Int × σ)} {r : Nat} (hop : ∀ m : Mem α, m.length = n →
      ∃ cells st, op m = pure (cells, (r : Int), st) ∧ cells.length = n)
    (h1 : xs.length < r) (h2 : r < n) (hroom : n ≤ v.cap ∨ (n ≤ env.maxSize ∧ env.canAlloc n = true)) :
    v.resizeAndOverwrite env n op = ub := by
  unfold Vec.resizeAndOverwrite
  rcases reserve_for env h n with ⟨v', e, hr, hc, _⟩ | ⟨hc, hf, e⟩
  · rw [e, pure_bind]
    simp only [if_true]
    obtain ⟨cells, st, e2, hlen⟩ := hop (v'.mem.take n) (by
      have : v'.mem.length = v'.cap := rfl
      simp; omega)
    rw [e2, pure_bind]
    simp only [Int.toNat_natCast]
    rw [if_neg (by omega), if_neg (by omega)]
    simp only [if_pos h2]
    unfold Vec.destructAtEnd
    simp only []
    rw [destructAtEnd_above _ _ _ (by rw [hr.last]; exact h1)]
    rfl
  · rcases hroom with h | ⟨ha, hb⟩
    · omega
    · rcases hf with h | h
      · omega
      · rw [hb] at h; cases h

example : (Vec.empty : Vec Nat).resizeAndOverwrite (σ := Unit) env100 4
    (fun _ => pure ([.live 7, .live 8, .raw, .raw], 2, ())) = ub := by rfl

/-- C08, the cases which work: the operation leaves objects with the values `ws` in the first cells and reports
their number, and either
* it fills the whole buffer, not smaller than the old size, or
* it reports no more than the old size, leaving the other old elements as objects (`Z`) and the cells
  behind them raw.
Missing: `C08_resize_and_overwrite_violated`, `C08_leak_violated`. -/
theorem C08_resize_and_overwrite_partial (env : Env) {v : Vec α} {xs : List α} (h : Rep v xs) {n : Nat}
    {op : Mem α → Cxx (Mem α × Int × σ)} {ws : List α} {st : σ}
    (hop : ∀ m : Mem α, m.length = n → ∃ Z k, op m = pure (lv ws ++ Z ++ rw' k, (ws.length : Int), st) ∧ Objs Z ∧
      ws.length + Z.length + k = n ∧
      ((ws.length = n ∧ xs.length ≤ n) ∨ (ws.length + Z.length = min xs.length n ∧ xs.length ≤ n))) :
    (∃ v', v.resizeAndOverwrite env n op = pure (some ((ws.length : Int), st), v') ∧ v'.toList = pure ws ∧
      Rep v' ws ∧ n ≤ v'.cap) ∨
    (v.cap < n ∧ (env.maxSize < n ∨ env.canAlloc n = false) ∧
      v.resizeAndOverwrite env n op = pure (none, v)) := by
  unfold Vec.resizeAndOverwrite
  rcases reserve_for env h n with ⟨v', e, hr, hc, _⟩ | ⟨hc, hf, e⟩
  · left
    have hlen : v'.mem.length = v'.cap := rfl
    rw [e, pure_bind]
    simp only [if_true]
    obtain ⟨Z, k, e2, hZ, hsum, hcase⟩ := hop (v'.mem.take n) (by simp; omega)
    rw [e2, pure_bind]
    simp only [Int.toNat_natCast]
    rw [if_neg (by simp; omega), if_neg (by omega)]
    have hx : xs.length ≤ n := by rcases hcase with h | h <;> exact h.2
    have hdrop : v'.mem.drop n = rw' (v'.cap - n) := by
      rw [hr.mem, List.drop_append]
      rw [List.drop_of_length_le (by simpa using hx)]
      simp only [lv_length, List.nil_append, rw', List.drop_replicate]
      congr 1
      have := hr.size_le
      omega
    by_cases hlt : ws.length < n
    · simp only [if_pos hlt]
      have hZl : ws.length + Z.length = xs.length := by
        rcases hcase with h | h
        · omega
        · rw [Nat.min_eq_left hx] at h; exact h.1
      obtain ⟨v2, e3, hr2, hc2⟩ := Vec.destructAtEnd_spec'
        (v := { v' with mem := lv ws ++ Z ++ rw' k ++ v'.mem.drop n }) (xs := ws) (Z := Z) (k := k + (v'.cap - n))
        (by rw [hdrop, rw'_add]; simp) hZ (by simp [hr.last]; omega) (by
          have : ({ v' with mem := lv ws ++ Z ++ rw' k ++ v'.mem.drop n } : Vec α).cap = v'.cap := by
            show (lv ws ++ Z ++ rw' k ++ v'.mem.drop n).length = v'.cap
            rw [hdrop]; simp; omega
          rw [this]; exact hr.blocks)
      rw [e3, pure_bind]
      have hl2 : v2 = { v2 with last := ws.length } := by
        have := hr2.last
        cases v2; simp at this; simp [this]
      rw [← hl2]
      refine ⟨v2, rfl, Vec.toList_spec hr2, hr2, ?_⟩
      rw [hc2]
      show n ≤ (lv ws ++ Z ++ rw' k ++ v'.mem.drop n).length
      simp; omega
    · simp only [if_neg hlt, pure_bind]
      have hZ0 : Z.length = 0 := by omega
      have hZn : Z = [] := List.length_eq_zero_iff.1 hZ0
      have hk : k = 0 := by omega
      subst hZn hk
      obtain ⟨hr2, hc2⟩ := Rep.upd (zs := ws) (k := v'.cap - n) (m := lv ws ++ [] ++ rw' 0 ++ v'.mem.drop n)
        (n := ws.length) hr (by rw [hdrop]; simp) rfl (by omega)
      exact ⟨_, rfl, Vec.toList_spec hr2, hr2, by rw [hc2]; exact hc⟩
  · right
    refine ⟨hc, hf, ?_⟩
    rw [e, pure_bind]
    rfl

/-- The hypotheses are met by an operation that grows a vector of one element to three, and by one that keeps the
first of two elements. -/
example : ∀ m : Mem Nat, m.length = 3 → ∃ Z k,
    (fun _ : Mem Nat => (pure ([.live 4, .live 5, .live 6], 3, ()) : Cxx (Mem Nat × Int × Unit))) m =
      pure (lv [4, 5, 6] ++ Z ++ rw' k, (([4, 5, 6] : List Nat).length : Int), ()) ∧ Objs Z ∧
      ([4, 5, 6] : List Nat).length + Z.length + k = 3 ∧
      ((([4, 5, 6] : List Nat).length = 3 ∧ 1 ≤ 3) ∨ (([4, 5, 6] : List Nat).length + Z.length = min 1 3 ∧ 1 ≤ 3)) :=
  fun _ _ => ⟨[], 0, rfl, by intro c hc; simp at hc, rfl, .inl ⟨rfl, by decide⟩⟩

example : ∀ m : Mem Nat, m.length = 3 → ∃ Z k,
    (fun _ : Mem Nat => (pure ([.live 4, .live 5, .raw], 1, ()) : Cxx (Mem Nat × Int × Unit))) m =
      pure (lv [4] ++ Z ++ rw' k, (([4] : List Nat).length : Int), ()) ∧ Objs Z ∧
      ([4] : List Nat).length + Z.length + k = 3 ∧
      ((([4] : List Nat).length = 3 ∧ 2 ≤ 3) ∨ (([4] : List Nat).length + Z.length = min 2 3 ∧ 2 ≤ 3)) :=
  fun _ _ => ⟨[.live 5], 1, rfl, by intro c hc; simp at hc; subst hc; simp, rfl, .inr ⟨rfl, by decide⟩⟩

/-- C08, violated: if `n` is less than the old size and the operation fills its buffer, the elements from `n` on
are never destroyed: they stay objects behind the end. -/
theorem C08_leak_violated (env : Env) {v : Vec α} {xs : List α} (h : Rep v xs) {n : Nat} (hn : n < xs.length)
    {op : Mem α → Cxx (Mem α × Int × σ)} {ws : List α} {st : σ} (hw : ws.length = n)
    (hop : op (v.mem.take n) = pure (lv ws, (n : Int), st)) :
    ∃ v', v.resizeAndOverwrite env n op = pure (some ((n : Int), st), v') ∧ v'.size = n ∧
      (∀ i a, n ≤ i → xs[i]? = some a → v'.mem[i]? = some (.live a)) ∧ v'.destruct = ub := by
  have hs := h.size_le
  have hc : ¬ v.cap < n := by omega
  refine ⟨{ v with mem := lv ws ++ v.mem.drop n, last := n }, ?_, rfl, ?_, ?_⟩
  · unfold Vec.resizeAndOverwrite
    rw [if_neg hc, pure_bind]
    simp only [if_true]
    rw [hop, pure_bind]
    simp only [Int.toNat_natCast]
    rw [if_neg (by simp [hw]), if_neg (by omega)]
    simp only [if_neg (Nat.lt_irrefl n), pure_bind]
  · intro i a hi ha
    simp only []
    have hlt := (List.getElem?_eq_some_iff.1 ha).1
    rw [List.getElem?_append_right (by simpa [hw] using hi), List.getElem?_drop]
    have : n + (i - (lv ws).length) = i := by simp [hw]; omega
    rw [this, h.mem, List.getElem?_append_left (by simpa using hlt)]
    simp [lv, ha]
  · have hmem : lv ws ++ v.mem.drop n = lv ws ++ (lv (xs.drop n) ++ rw' (v.cap - xs.length)) := by
      rw [h.mem, List.drop_append_of_le_length (by simp; omega)]
      simp [lv, List.map_drop]
    unfold Vec.destruct
    simp only []
    rw [if_neg (by rw [hmem]; simp; omega)]
    unfold Vec.clear Vec.destructAtEnd
    simp only []
    rw [hmem, destructAtEnd_eq (m := lv ws ++ (lv (xs.drop n) ++ rw' (v.cap - xs.length))) (a := 0) (b := n)
      (A := []) (Z := lv ws) (B := lv (xs.drop n) ++ rw' (v.cap - xs.length)) (by simp) rfl (by simp [hw])
      (objs_lv _), pure_bind, pure_bind]
    simp only []
    unfold release
    rw [if_neg]
    · rfl
    · intro hall
      rw [List.all_eq_true] at hall
      have := hall (.live (xs[n]'hn)) (by
        simp only [List.mem_append]
        refine .inr (.inl ?_)
        exact List.mem_map_of_mem (by rw [List.drop_eq_getElem_cons hn]; exact List.mem_cons_self))
      simp at this

example : Rep roomy [1, 2, 3] ∧ 1 < ([1, 2, 3] : List Nat).length := ⟨(Rep.of (k := 5) rfl rfl rfl).1, by decide⟩

/-! ### `append_and_overwrite` -/

/-- C74: `append_and_overwrite( n, op )` keeps the elements and appends those the operation constructed at the start
of its buffer, if their number is what it reports; or throws and changes nothing. -/
theorem C74_append_and_overwrite (env : Env) {v : Vec α} {xs : List α} (h : Rep v xs) {n : Nat}
    (hn : xs.length + n < 2 ^ 64) {op : Mem α → Cxx (Mem α × Int)} {ws : List α} (hw : ws.length ≤ n)
    (hop : op (rw' n) = pure (lv ws ++ rw' (n - ws.length), (ws.length : Int))) :
    (∃ v', v.appendAndOverwrite env n op = pure (some (ws.length : Int), v') ∧ v'.toList = pure (xs ++ ws) ∧
      Rep v' (xs ++ ws)) ∨
    (v.cap < xs.length + n ∧ (env.maxSize < xs.length + n ∨ env.canAlloc (xs.length + n) = false) ∧
      v.appendAndOverwrite env n op = pure (none, v)) := by
  unfold Vec.appendAndOverwrite
  rw [Vec.size, h.last, add64_eq hn]
  rcases reserve_for env h (xs.length + n) with ⟨v', e, hr, hc, _⟩ | ⟨hc, hf, e⟩
  · left
    obtain ⟨k, hm, hk⟩ := hr.ex
    have hlen : (lv xs).length = v'.last := by simp [hr.last]
    rw [e, pure_bind]
    simp only [if_true]
    have h1 : (v'.mem.drop v'.last).take n = rw' n := by
      rw [hm, ← hlen, List.drop_left, rw', List.take_replicate, rw']
      congr 1; omega
    rw [h1, hop, pure_bind]
    simp only [Int.toNat_natCast]
    rw [if_neg (by simp; omega), if_neg (by omega)]
    have h2 : v'.mem.take v'.last = lv xs := by rw [hm, ← hlen, List.take_left]
    have h3 : v'.mem.drop (v'.last + n) = rw' (k - n) := by
      rw [hm, ← hlen, ← List.drop_drop, List.drop_left, rw', List.drop_replicate, rw']
    obtain ⟨hr2, _⟩ := Rep.upd (zs := xs ++ ws) (k := n - ws.length + (k - n))
      (m := v'.mem.take v'.last ++ (lv ws ++ rw' (n - ws.length)) ++ v'.mem.drop (v'.last + n))
      (n := v'.last + ws.length) hr (by rw [h2, h3, rw'_add]; simp) (by simp [hr.last]) (by simp; omega)
    exact ⟨_, rfl, Vec.toList_spec hr2, hr2⟩
  · right
    refine ⟨hc, hf, ?_⟩
    rw [e, pure_bind]
    rfl

/-- C74: an operation that reports more elements than the cells it got ends the program; the number is never taken over. -/
theorem C74_over_report (env : Env) {v : Vec α} {xs : List α} (h : Rep v xs) {n : Nat} (hn : xs.length + n ≤ v.cap)
    (hc : v.cap < 2 ^ 64) {op : Mem α → Cxx (Mem α × Int)} {cells : Mem α} {r : Int} (hl : cells.length = n) (hr : (n : Int) < r)
    (hop : op (rw' n) = pure (cells, r)) : v.appendAndOverwrite env n op = abort := by
  unfold Vec.appendAndOverwrite
  rw [Vec.size, h.last, add64_eq (by omega), if_neg (by omega), pure_bind]
  simp only [if_true]
  obtain ⟨k, hm, hk⟩ := h.ex
  have hlen : (lv xs).length = v.last := by simp [h.last]
  have h1 : (v.mem.drop v.last).take n = rw' n := by
    rw [hm, ← hlen, List.drop_left, rw', List.take_replicate, rw']
    congr 1; omega
  rw [h1, hop, pure_bind]
  simp only
  rw [if_neg (by simp [hl]), if_pos (by omega)]

example := C74_over_report ⟨100, fun _ => true⟩ (v := ⟨[.live 4, .live 5, .raw], 2, 1⟩) (xs := [4, 5]) ⟨rfl, by decide, rfl, rfl⟩ (n := 1)
  (by decide) (by decide) (op := fun _ => pure ([.live 6], 2)) rfl (by decide) rfl

example : (fun _ : Mem Nat => (pure ([.live 7, .live 8, .raw], 2) : Cxx (Mem Nat × Int))) (rw' 3) =
    pure (lv [7, 8] ++ rw' (3 - ([7, 8] : List Nat).length), (([7, 8] : List Nat).length : Int)) := rfl

/-! ### `block_append_from` -/

/-- The loop in the operation never runs. -/
theorem blockOp_eq (block cur : Nat) (src : List α) (cells : Mem α) :
    blockOp block cur (add64 cur block) src cells =
      pure (cells, ((add64 cur block : Nat) : Int), (add64 cur block, src)) := by
  unfold blockOp
  simp only []
  cases src with
  | nil => rfl
  | cons a src =>
    rw [blockInner, if_neg (Nat.lt_irrefl _), pure_bind]

theorem resizeAndOverwrite_state (env : Env) (v : Vec α) (n : Nat) (r r' : Int) (st st' : σ) (v' : Vec α)
    (f : Mem α → Mem α)
    (h : v.resizeAndOverwrite env n (fun m => pure (f m, r, st)) = pure (some (r', st'), v')) : st' = st := by
  unfold Vec.resizeAndOverwrite at h
  obtain ⟨⟨ok, w⟩, _, h⟩ := bind_eq_pure.1 h
  cases ok with
  | false => simp only [Bool.false_eq_true, if_false] at h; cases pure_inj.1 h
  | true =>
    simp only [if_true, pure_bind] at h
    split at h
    · exact absurd h (ub_ne_pure _)
    · split at h
      · exact absurd h (abort_ne_pure _)
      · obtain ⟨w', _, h⟩ := bind_eq_pure.1 h
        have := pure_inj.1 h
        injection this with h1 _
        injection h1 with h1
        injection h1 with _ h2
        exact h2.symm

/-- C09, violated: `block_append_from` never returns normally unless the source is empty: it runs forever, throws,
or has undefined behaviour.  For every vector, source and block size, and any amount of memory. -/
theorem C09_never_appends_violated (env : Env) (block : Nat) (src : List α) (v : Vec α) (hne : src ≠ []) (v' : Vec α) :
    blockAppend env block src v ≠ pure (true, v') := by
  unfold blockAppend
  suffices h : ∀ src v cur, src ≠ [] → blockLoop env block src v cur ≠ (pure (true, v') : Cxx (Bool × Vec α)) from
    h src v _ hne
  refine blockLoop.fixpoint_induct env block
    (fun f => ∀ src v cur, src ≠ [] → f src v cur ≠ pure (true, v'))
    (Cxx.admissible3 (fun src _ _ x => src ≠ [] → x ≠ pure (true, v'))
      (fun _ _ _ _ => diverge_ne_pure _)) ?_
  intro f ih src v cur hne h
  cases src with
  | nil => exact hne rfl
  | cons a rest =>
    simp only [] at h
    obtain ⟨⟨r, w⟩, e, h⟩ := bind_eq_pure.1 h
    have hop : blockOp block cur (add64 cur block) (a :: rest) =
        fun m => pure (id m, ((add64 cur block : Nat) : Int), (add64 cur block, a :: rest)) :=
      funext fun m => blockOp_eq block cur (a :: rest) m
    rw [hop] at e
    cases r with
    | none => simp only [] at h; have := pure_inj.1 h; injection this with h1 _; cases h1
    | some r =>
      obtain ⟨r', cur', src'⟩ := r
      have := resizeAndOverwrite_state _ _ _ _ _ _ _ _ _ e
      injection this with h1 h2
      subst h1 h2
      exact ih _ _ _ (by simp) h

example := fun v' => C09_never_appends_violated ⟨100, fun _ => true⟩ 4 [1, 2] ⟨[.live 4, .live 5, .raw], 2, 1⟩ (by decide) v'

/-- C09, violated: with `block_size = 0` it runs forever. -/
theorem C09_zero_block_violated (env : Env) (a : α) (src : List α) {v : Vec α} {xs : List α} (h : Rep v xs)
    (hlen : xs.length < 2 ^ 64) :
    blockAppend env 0 (a :: src) v = diverge := by
  unfold blockAppend
  have hsz : add64 v.size 0 = v.size := by
    unfold add64; rw [Vec.size, h.last]; exact Nat.mod_eq_of_lt hlen
  have hs := h.size_le
  suffices hh : ∀ src' v' cur', src' = a :: src → v' = v → cur' = v.size →
      blockLoop env 0 src' v' cur' = (diverge : Cxx (Bool × Vec α)) from hh _ _ _ rfl rfl rfl
  refine blockLoop.fixpoint_induct env 0
    (fun f => ∀ src' v' cur', src' = a :: src → v' = v → cur' = v.size → f src' v' cur' = diverge)
    (Cxx.admissible3 (fun src' v' cur' x => src' = a :: src → v' = v → cur' = v.size → x = diverge)
      (fun _ _ _ _ _ _ => rfl)) ?_
  rintro f ih _ v' _ rfl rfl rfl
  have hop : blockOp 0 v'.size (add64 v'.size 0) (a :: src) =
      fun m => pure (m, ((v'.size : Nat) : Int), (v'.size, a :: src)) :=
    funext fun m => by rw [blockOp_eq, hsz]
  have e : v'.resizeAndOverwrite env v'.size (fun m => pure (m, ((v'.size : Nat) : Int), (v'.size, a :: src))) =
      pure (some ((v'.size : Int), (v'.size, a :: src)), v') := by
    unfold Vec.resizeAndOverwrite
    have hlen : v'.mem.length = v'.cap := rfl
    have hl : v'.size = xs.length := h.last
    rw [if_neg (by omega), pure_bind]
    simp only [if_true, pure_bind, Int.toNat_natCast]
    rw [if_neg (by simp; omega), if_neg (by omega)]
    simp only [if_neg (Nat.lt_irrefl _), pure_bind, List.take_append_drop]
    rfl
  simp only []
  rw [hop, hsz, e, pure_bind]
  exact ih _ _ _ rfl rfl rfl

example := C09_zero_block_violated ⟨100, fun _ => true⟩ 1 [2] (v := ⟨[.live 4, .live 5, .raw], 2, 1⟩) (xs := [4, 5]) ⟨rfl, by decide, rfl, rfl⟩ (by decide)

/-- C09, what is left: an empty source. -/
theorem C09_empty_partial (env : Env) (block : Nat) (v : Vec α) : blockAppend env block [] v = pure (true, v) := by
  unfold blockAppend
  rw [blockLoop]

end Verif.Vector
