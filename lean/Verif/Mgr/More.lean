import Verif.Mgr.Props

/-!
# C68: the helpers of MPI_Manager for tables, numbers and reductions

Model of the members `gatherv_m`/`gatherv_s` of two-dimensional arrays, `reduce`, the `allreduce` in place, and the members for single
values of levels/cxxsupport/ls_mpi_support.h.  A two-dimensional array is the pair of its number of columns and the list of its
elements row by row.
-/

namespace Verif.Mgr
open Verif Res

variable {α β : Type} {n : ℕ}

/-! ## the library -/

/-- `out.alloc(nval_tot/in.size2(), in.size2())`, ls_mpi_support.h:171, arr2: levels/cxxsupport/ls_arr.h:382-386; the quotient is that
of unsigned numbers.  (A negative number becomes a huge size.) -/
def allocTable (junk : α) (tot : ℤ) (cols : ℕ) : Res (List α) :=
  if cols = 0 then ub "division by zero"
  else if tot < 0 then throw "bad_alloc"
  else ok (List.replicate (tot.toNat / cols * cols) junk)

/-- `gatherv_m(in, out)` of two-dimensional arrays, ls_mpi_support.h:165-174; the result is `out`. -/
def gathervTableM (junk : α) (cols : ℕ) (inp : List α) : Prog α (ℕ × List α) :=
  gathervHelper (int32 inp.length) fun (nval, off, tot) =>
    lift (allocTable junk tot cols >>= fun out => unequal inp out >>= fun _ => sent (int32 inp.length) inp >>= fun xs => ok (out, xs))
      fun (out, xs) => .call (.gatherv xs (some (nval, off, out))) fun
        | .data res => .done (ok (cols, res))
        | _ => .done (ub "answer")

/-- `gatherv_s(in)` of two-dimensional arrays, ls_mpi_support.h:176-181; `out0` is what the rank returns. -/
def gathervTableS (inp : List α) (out0 : ℕ × List α) : Prog α (ℕ × List α) :=
  .call (.gather (int32 inp.length)) fun _ =>
    lift (unequal inp ([] : List α) >>= fun _ => sent (int32 inp.length) inp) fun xs =>
      .call (.gatherv xs none) fun _ => .done (ok out0)

/-- The caller: rank 0 calls `gatherv_m`, the others `gatherv_s` (as ls_mpi_support.h:162-163 does for one-dimensional arrays; there is
no such member for two-dimensional ones). -/
def gathervTable (junk : α) (rank : ℕ) (inp out0 : ℕ × List α) : Prog α (ℕ × List α) :=
  if rank = 0 then gathervTableM junk inp.1 inp.2 else gathervTableS inp.2 out0

/-- `reduce(in, out, op, root)` for arrays, ls_mpi_support.h:188-190 and 194-203, mpi_support.cc:259-265: on the root `out` gets the
size of `in`, on the others the address passed for the result is 0; the result is `out`. -/
def reduce (junk : α) (op : α → α → α) (root rank : ℕ) (inp out0 : List α) : Prog α (List α) :=
  if rank = root then
    lift (unequal inp (List.replicate inp.length junk)) fun _ => .call (.reduce op root inp) fun
      | .data res => .done (ok res)
      | _ => .done (ub "answer")
  else
    lift (unequal inp ([] : List α)) fun _ => .call (.reduce op root inp) fun _ => .done (ok out0)

/-- `reduce(in, out, op, root)` for a number, ls_mpi_support.h:191-193: the addresses differ; the result is `out`, which was `out0`. -/
def reduceOne (op : α → α → α) (root rank : ℕ) (inp out0 : α) : Prog α α :=
  .call (.reduce op root [inp]) fun
    | .data [x] => if rank = root then .done (ok x) else .done (ok out0)
    | _ => if rank = root then .done (ub "answer") else .done (ok out0)

/-- `allreduce(data, op)` for arrays, ls_mpi_support.h:238-239, mpi_support.cc:250-252 (`MPI_IN_PLACE`): the result is `data`. -/
def allreduceInPlace (op : α → α → α) (data : List α) : Prog α (List α) :=
  .call (.allreduce op data) fun
    | .data res => .done (ok res)
    | _ => .done (ub "answer")

/-- `allreduce(in, out, op)` and `allreduce(data, op)` for a number, ls_mpi_support.h:230-231 and 240-241. -/
def allreduceOne (op : α → α → α) (x : α) : Prog α α :=
  .call (.allreduce op [x]) fun
    | .data [y] => .done (ok y)
    | _ => .done (ub "answer")

/-- `bcast(data, root)` for a number, ls_mpi_support.h:247-248. -/
def bcastOne (root : ℕ) (x : α) : Prog α α :=
  .call (.bcast root [x]) fun
    | .data [y] => .done (ok y)
    | _ => .done (ub "answer")

/-- `allgather(in, out)` for a number, ls_mpi_support.h:213-217: the result is `out`; the address of a number differs from that of an
array. -/
def allgatherOne (x : α) : Prog α (List α) :=
  .call (.allgather [x]) fun
    | .data res => .done (ok res)
    | _ => .done (ub "answer")

/-- `gather_m(in, out, root)` on the root and `gather_s(in, root)` on the other ranks, ls_mpi_support.h:137-144, mpi_support.cc:226-232:
the result is `out`. -/
def gatherOne (root rank : ℕ) (x : α) (out0 : List α) : Prog α (List α) :=
  .call (.gatherOne root x) fun
    | .data res => if rank = root then .done (ok res) else .done (ok out0)
    | _ => if rank = root then .done (ub "answer") else .done (ok out0)

/-! ## tables -/

/-- A table of `cols` columns: the list of its elements, from its rows. -/
def table (cols : ℕ) (rows : List (List α)) : Prop := ∀ r ∈ rows, r.length = cols

theorem flatten_table {cols : ℕ} {rows : List (List α)} (h : table cols rows) : rows.flatten.length = rows.length * cols := by
  induction rows with
  | nil => simp
  | cons r l ih =>
    rw [flatten_cons_length, ih (fun s hs => h s (by simp [hs])), h r (by simp), List.length_cons]
    ring

theorem alloc_table (junk : α) {cols m : ℕ} (h0 : cols ≠ 0) (hd : cols ∣ m) :
    allocTable junk (m : ℤ) cols = ok (List.replicate m junk) := by
  unfold allocTable
  rw [if_neg h0, if_neg (by omega), Int.toNat_natCast, Nat.div_mul_cancel hd]

/-- What a rank does after the first step. -/
theorem gathervTable_after (junk : α) (cols : Fin n → ℕ) (ins : Fin n → List α) (out0 : Fin n → ℕ × List α)
    (ht : (List.ofFn ins).flatten.length < 2 ^ 31) (r : Fin n) :
    ∃ k, gathervTable junk r.val (cols r, ins r) (out0 r) = .call (.gather ((ins r).length : ℤ)) k ∧
      k (if r.val = 0 then .ints (List.ofFn (fun r => ((ins r).length : ℤ))) else .unit) =
        if r.val = 0 then
          lift (allocTable junk ((List.ofFn ins).flatten.length : ℤ) (cols r) >>= fun out =>
              unequal (ins r) out >>= fun _ => ok (out, ins r)) (fun (out, xs) =>
            .call (.gatherv xs (some (List.ofFn (fun r => ((ins r).length : ℤ)), starts 0 (List.ofFn ins), out))) fun
              | .data res => .done (ok (cols r, res))
              | _ => .done (ub "answer"))
        else if ins r = [] then .done (throw "input and output buffers must not be identical")
          else .call (.gatherv (ins r) none) (fun _ => .done (ok (out0 r))) := by
  have hl : (ins r).length < 2 ^ 31 := lt_of_le_of_lt (length_le_flatten ins r) ht
  by_cases h0 : r.val = 0
  · unfold gathervTable gathervTableM gathervHelper
    rw [if_pos h0]
    dsimp only
    rw [int32_eq hl]
    refine ⟨_, rfl, ?_⟩
    rw [if_pos h0, if_pos h0]
    dsimp only
    have e1 : sumFrom 0 (lens (List.ofFn ins)) = ok ((0 + (List.ofFn ins).flatten.length : ℕ) : ℤ) := sumFrom_eq _ 0 (by omega)
    have e2 : prefixes 0 (lens (List.ofFn ins)) = ok (starts 0 (List.ofFn ins)) := prefixes_eq _ 0 (by omega)
    rw [← lens_ofFn, e1, ok_bind, e2, ok_bind]
    have hs : sent ((ins r).length : ℤ) (ins r) = ok (ins r) := by
      have := sent_eq hl
      rwa [int32_eq hl] at this
    simp only [lift, hs, ok_bind, zero_add]
  · unfold gathervTable gathervTableS
    rw [if_neg h0]
    dsimp only
    rw [int32_eq hl]
    refine ⟨_, rfl, ?_⟩
    rw [if_neg h0]
    by_cases he : ins r = []
    · rw [if_pos he]
      simp only [unequal, he, and_self, if_true, throw_bind, lift]
    · rw [if_neg he]
      have hs : sent ((ins r).length : ℤ) (ins r) = ok (ins r) := by
        have := sent_eq hl
        rwa [int32_eq hl] at this
      simp only [unequal, he, false_and, if_false, ok_bind, hs, lift]

/-- **C68** (`gatherv_m`/`gatherv_s` of tables): if all ranks have tables of the same positive number of columns, and every rank but the
first has at least one row (the first too, if it is alone), all return; the first has the table of all rows in the order of the ranks, the others' `out`
is unchanged. -/
theorem C68_gatherv_table_partial (junk : α) (cols : ℕ) (h0 : cols ≠ 0) (rows : Fin n → List (List α)) (out0 : Fin n → ℕ × List α)
    (hr : ∀ r, table cols (rows r)) (ht : (List.ofFn (fun r => (rows r).flatten)).flatten.length < 2 ^ 31)
    (hne : ∀ r : Fin n, r.val ≠ 0 → rows r ≠ []) (h1 : ∃ r, rows r ≠ []) :
    Runs (fun r : Fin n => gathervTable junk r.val (cols, (rows r).flatten) (out0 r))
      (fun r => ok (if r.val = 0 then (cols, (List.ofFn rows).flatten.flatten) else out0 r)) := by
  have hnil : ∀ r, (rows r).flatten = [] → rows r = [] := by
    intro r h
    have := flatten_table (hr r)
    rw [h] at this
    simp only [List.length_nil] at this
    rcases Nat.mul_eq_zero.mp this.symm with h | h
    · exact List.length_eq_zero_iff.mp h
    · exact absurd h h0
  have hff : (List.ofFn (fun r => (rows r).flatten)).flatten = (List.ofFn rows).flatten.flatten := by
    rw [show List.ofFn (fun r => (rows r).flatten) = (List.ofFn rows).map List.flatten by simp [List.map_ofFn, Function.comp_def]]
    rw [List.flatten_flatten]
  have hall : (List.ofFn (fun r => (rows r).flatten)).flatten ≠ [] := by
    obtain ⟨r, h⟩ := h1
    intro h2
    have h3 := length_le_flatten (fun r => (rows r).flatten) r
    rw [h2] at h3
    simp only [List.length_nil, Nat.le_zero_eq] at h3
    exact h (hnil r (List.length_eq_zero_iff.mp h3))
  have hdvd : cols ∣ (List.ofFn (fun r => (rows r).flatten)).flatten.length := by
    rw [hff, flatten_table (cols := cols) (rows := (List.ofFn rows).flatten)]
    · exact Dvd.intro_left _ rfl
    · intro s hs
      obtain ⟨l, hl, hs⟩ := List.mem_flatten.mp hs
      obtain ⟨r, rfl⟩ := (List.mem_ofFn).mp hl
      exact hr r s hs
  choose k hk hk2 using gathervTable_after junk (fun _ => cols) (fun r => (rows r).flatten) out0 ht
  refine Runs.step' hk (.gather _) ?_
  refine Runs.step' (q := fun r => .gatherv (rows r).flatten (if r.val = 0 then
      some (List.ofFn (fun r => (((rows r).flatten).length : ℤ)), starts 0 (List.ofFn (fun r => (rows r).flatten)),
        List.replicate (List.ofFn (fun r => (rows r).flatten)).flatten.length junk) else none))
    (k := fun r => if r.val = 0 then (fun
            | .data res => .done (ok (cols, res))
            | _ => .done (ub "answer")) else (fun _ => .done (ok (out0 r))))
    (fun r => ?_) (.gatherv (fun r => (rows r).flatten) _ _ _ (List.ofFn (fun r => (rows r).flatten)).flatten rfl ?_ ?_)
    (Runs.fin' (fun r => ?_))
  · rw [hk2 r]
    by_cases hr0 : r.val = 0
    · rw [if_pos hr0, if_pos hr0, if_pos hr0, alloc_table junk h0 hdvd, ok_bind, unequal_ok, ok_bind]
      · rfl
      · right
        intro h
        have := congrArg List.length h
        rw [List.length_replicate] at this
        exact hall (List.length_eq_zero_iff.mp (by simpa using this))
    · rw [if_neg hr0, if_neg hr0, if_neg hr0, if_neg (fun h => hne r hr0 (hnil r h))]
  · rw [starts_length, List.length_ofFn]
  · exact place_eq (List.ofFn (fun r => (rows r).flatten)) [] _ (by simp)
  · by_cases hr0 : r.val = 0
    · simp only [hr0, if_true, hff]
    · simp only [hr0, if_false]

/-- **C68** (`gatherv_m` of tables, a root without columns): if the first rank's table has no columns, it divides by zero, whatever the
others have. -/
theorem C68_gatherv_table_no_columns (junk : α) (cols : Fin n → ℕ) (ins : Fin n → List α) (out0 : Fin n → ℕ × List α)
    (ht : (List.ofFn ins).flatten.length < 2 ^ 31) (r : Fin n) (hr : r.val = 0) (hc : cols r = 0) :
    ∃ k, gathervTable junk r.val (cols r, ins r) (out0 r) = .call (.gather ((ins r).length : ℤ)) k ∧
      k (.ints (List.ofFn (fun r => ((ins r).length : ℤ)))) = .done (ub "division by zero") := by
  obtain ⟨k, h1, h2⟩ := gathervTable_after junk cols ins out0 ht r
  refine ⟨k, h1, ?_⟩
  rw [if_pos hr, if_pos hr] at h2
  rw [h2, allocTable, if_pos hc]
  rfl

/-- Without space for all segments, they cannot be placed. -/
theorem place_short (l : List (List α)) : ∀ pre suf out : List α, suf.length < l.flatten.length →
    place (pre ++ suf) ((starts pre.length l).zip l) ≠ ok out := by
  induction l with
  | nil => intro pre suf out h; simp at h
  | cons s l ih =>
    intro pre suf out h
    rw [flatten_cons_length] at h
    show blit (pre ++ suf) (pre.length : ℤ) s >>= (fun b => place b ((starts (pre.length + s.length) l).zip l)) ≠ _
    by_cases hs : s.length ≤ suf.length
    · have hb : blit (pre ++ suf) (pre.length : ℤ) s = ok ((pre ++ s) ++ suf.drop s.length) := by
        unfold blit
        rw [if_pos ⟨Int.natCast_nonneg _, by simp; omega⟩]
        simp [List.drop_append]
      rw [hb, ok_bind]
      have := ih (pre ++ s) (suf.drop s.length) out (by rw [List.length_drop]; omega)
      rwa [List.length_append] at this
    · have hb : blit (pre ++ suf) (pre.length : ℤ) s = ub "write outside the receive buffer" := by
        unfold blit
        rw [if_neg]
        rintro ⟨-, h2⟩
        rw [Int.toNat_natCast, List.length_append] at h2
        omega
      rw [hb, ub_bind]
      simp

theorem Step.gatherv_inv {q : Fin n → Req α} {a : Fin n → Ans α} (h : Step q a) (z : Fin n) (hz : z.val = 0) (xs : Fin n → List α)
    (counts displs : List ℤ) (buf : List α)
    (hq : ∀ r, ∃ o, q r = .gatherv (xs r) o) (hq0 : q z = .gatherv (xs z) (some (counts, displs, buf))) :
    ∃ out, place buf (displs.zip (List.ofFn xs)) = ok out := by
  have h0 := hq0
  cases h with
  | gatherv xs' counts' displs' buf' out hc hd ho =>
    obtain rfl : xs' = xs := funext (fun r => (Req.gatherv.inj (hq r).choose_spec).1)
    have h2 := (Req.gatherv.inj hq0).2
    rw [if_pos hz] at h2
    obtain ⟨rfl, rfl, rfl⟩ : counts' = counts ∧ displs' = displs ∧ buf' = buf := by
      have := Option.some.inj h2
      simpa using this
    exact ⟨out, ho⟩
  | gather | allgather | allreduce | bcast | alltoall | alltoallInt | alltoallv | gatherOne | reduce | sendrecv => cases h0

/-- **C68** (`gatherv_m` of tables, different numbers of columns): if the number of columns of the first rank does not divide the number
of all elements, the result is allocated too small and the gathering has no defined outcome. -/
theorem C68_gatherv_table_columns_differ (junk : α) (cols : Fin n → ℕ) (ins : Fin n → List α) (out0 : Fin n → ℕ × List α)
    (ht : (List.ofFn ins).flatten.length < 2 ^ 31) (z : Fin n) (hz : z.val = 0)
    (hc : ¬cols z ∣ (List.ofFn ins).flatten.length) (hc0 : cols z ≠ 0) (hne : ∀ r, ins r ≠ []) (x : Fin n → Res (ℕ × List α)) :
    ¬Runs (fun r : Fin n => gathervTable junk r.val (cols r, ins r) (out0 r)) x := by
  have hn : 0 < n := z.pos
  choose k hk hk2 using gathervTable_after junk cols ins out0 ht
  have hal : ∃ buf : List α, allocTable junk ((List.ofFn ins).flatten.length : ℤ) (cols z) = ok buf ∧
      buf.length < (List.ofFn ins).flatten.length := by
    refine ⟨List.replicate ((List.ofFn ins).flatten.length / cols z * cols z) junk, ?_, ?_⟩
    · unfold allocTable
      rw [if_neg hc0, if_neg (by omega), Int.toNat_natCast]
    · rw [List.length_replicate]
      refine lt_of_le_of_ne (Nat.div_mul_le_self _ _) ?_
      intro h
      exact hc (Dvd.intro_left _ h)
  obtain ⟨buf, hb1, hb2⟩ := hal
  intro h
  rcases h.inv with h | ⟨q, k', a, h1, h2, h3⟩
  · have := h ⟨0, hn⟩
    rw [hk] at this
    cases this
  · have hq : ∀ r, q r = .gather ((ins r).length : ℤ) := fun r => (Prog.call.inj ((h1 r).symm.trans (hk r))).1
    have hkk : ∀ r, k' r = k r := fun r => (Prog.call.inj ((h1 r).symm.trans (hk r))).2
    obtain rfl := h2.gather_inv hn _ hq
    have he := fun r => (congrFun (hkk r) _).trans (hk2 r)
    have hz2 := he z
    rw [if_pos hz, if_pos hz, hb1, ok_bind, unequal_ok (Or.inl (hne z)), ok_bind] at hz2
    dsimp only [lift] at hz2
    rcases h3.inv with h4 | ⟨q2, k2, a2, h4, h5, -⟩
    · have := h4 z
      dsimp only at this
      rw [if_pos hz, hz2] at this
      cases this
    · have hqz := (Prog.call.inj ((h4 z).symm.trans (by dsimp only; rw [if_pos hz]; exact hz2))).1
      obtain ⟨out, ho⟩ := h5.gatherv_inv z hz ins _ _ _ (fun r => by
        by_cases hr : r.val = 0
        · obtain rfl : r = z := Fin.ext (by omega)
          exact ⟨_, hqz⟩
        · have h6 := he r
          rw [if_neg hr, if_neg hr, if_neg (hne r)] at h6
          exact ⟨_, (Prog.call.inj ((h4 r).symm.trans (by dsimp only; rw [if_neg hr]; exact h6))).1⟩) hqz
      exact place_short (List.ofFn ins) [] buf out hb2 ho

/-! ## reductions -/

/-- **C68** (`reduce`): arrays of one non-zero size: the root has the element-wise combination, the others' `out` is unchanged. -/
theorem C68_reduce (junk : α) (op : α → α → α) (root : Fin n) (ins out0 : Fin n → List α) (c : ℕ) (hc : ∀ r, (ins r).length = c)
    (h0 : c ≠ 0) :
    Runs (fun r : Fin n => reduce junk op root.val r.val (ins r) (out0 r))
      (fun r => ok (if r = root then combine op (List.ofFn ins) else out0 r)) := by
  have hne : ∀ r, ins r ≠ [] := fun r h => h0 (by rw [← hc r, h]; rfl)
  refine Runs.step' (q := fun r => .reduce op root.val (ins r)) (k := fun r => if r = root then (fun
      | .data res => .done (ok res)
      | _ => .done (ub "answer")) else fun _ => .done (ok (out0 r))) (fun r => ?_) (.reduce op root ins c hc) (Runs.fin' (fun r => ?_))
  · unfold reduce
    by_cases h : r = root
    · subst h
      rw [if_pos rfl, if_pos rfl, unequal_ok (Or.inl (hne r))]
      rfl
    · rw [if_neg (fun h2 => h (Fin.ext h2)), if_neg h, unequal_ok (Or.inl (hne r))]
      rfl
  · by_cases h : r = root
    · simp only [h, if_true]
    · simp only [h, if_false]

/-- **C68** (`reduce`, empty arrays): every rank throws. -/
theorem C68_reduce_empty_throws (junk : α) (op : α → α → α) (root : Fin n) (out0 : Fin n → List α) :
    Runs (fun r : Fin n => reduce junk op root.val r.val [] (out0 r))
      (fun _ => throw "input and output buffers must not be identical") := by
  refine Runs.fin' (fun r => ?_)
  unfold reduce
  by_cases h : r.val = root.val
  · rw [if_pos h]
    simp [unequal, lift]
  · rw [if_neg h]
    simp [unequal, lift]

/-- **C68** (`allreduce` in place): every rank has the element-wise combination, also of arrays without elements. -/
theorem C68_allreduce_in_place (op : α → α → α) (data : Fin n → List α) (c : ℕ) (hc : ∀ r, (data r).length = c) :
    Runs (fun r : Fin n => allreduceInPlace op (data r)) (fun _ => ok (combine op (List.ofFn data))) :=
  Runs.step' (q := fun r => .allreduce op (data r)) (k := fun _ => fun
      | .data res => .done (ok res)
      | _ => .done (ub "answer")) (fun _ => rfl) (.allreduce op data c hc) (Runs.fin' (fun _ => rfl))

/-! ## numbers -/

/-- The combination of a list of numbers, in order. -/
def combineOne (op : α → α → α) : List α → Option α
  | [] => none
  | [x] => some x
  | x :: y :: l => (combineOne op (y :: l)).map (op x)

theorem combine_singletons (op : α → α → α) : ∀ l : List α, l ≠ [] →
    ∃ y, combineOne op l = some y ∧ combine op (l.map (fun x => [x])) = [y]
  | [], h => absurd rfl h
  | [x], _ => ⟨x, rfl, rfl⟩
  | x :: y :: l, _ => by
    obtain ⟨z, h1, h2⟩ := combine_singletons op (y :: l) (by simp)
    refine ⟨op x z, by simp only [combineOne, h1, Option.map_some], ?_⟩
    simp only [List.map_cons] at h2
    simp only [List.map_cons, combine, h2, List.zipWith_cons_cons, List.zipWith_nil_left]

/-- **C68** (`reduce`, `allreduce`, `allgather`, `bcast` and `gather_m`/`gather_s` of one number per rank): every call returns on all
ranks; `allreduce` gives every rank, `reduce` the root the combination of the numbers in rank order; `allgather` gives every rank,
`gather` the root the list of the numbers in rank order; `bcast` gives every rank the number of the root; the other
ranks' results are unchanged. -/
theorem C68_numbers (op : α → α → α) (root : Fin n) (xs out0 : Fin n → α) (outs0 : Fin n → List α) :
    (∃ y, combineOne op (List.ofFn xs) = some y ∧
      Runs (fun r : Fin n => allreduceOne op (xs r)) (fun _ => ok y) ∧
      Runs (fun r : Fin n => reduceOne op root.val r.val (xs r) (out0 r)) (fun r => ok (if r = root then y else out0 r))) ∧
    Runs (fun r : Fin n => bcastOne root.val (xs r)) (fun _ => ok (xs root)) ∧
    Runs (fun r : Fin n => allgatherOne (xs r)) (fun _ => ok (List.ofFn xs)) ∧
    Runs (fun r : Fin n => gatherOne root.val r.val (xs r) (outs0 r)) (fun r => ok (if r = root then List.ofFn xs else outs0 r)) := by
  have hn : 0 < n := root.pos
  have hmap : (List.ofFn xs).map (fun x => [x]) = List.ofFn (fun r => [xs r]) := by simp [List.map_ofFn, Function.comp_def]
  obtain ⟨y, hy, hy2⟩ := combine_singletons op (List.ofFn xs) (ofFn_ne_nil hn xs)
  rw [hmap] at hy2
  refine ⟨⟨y, hy, ?_, ?_⟩, ?_, ?_, ?_⟩
  · refine Runs.step' (fun _ => rfl) (.allreduce op (fun r => [xs r]) 1 (fun _ => rfl)) (Runs.fin' (fun r => ?_))
    rw [hy2]
  · refine Runs.step' (fun _ => rfl) (.reduce op root (fun r => [xs r]) 1 (fun _ => rfl)) (Runs.fin' (fun r => ?_))
    by_cases h : r = root
    · subst h
      simp only [if_true, hy2]
    · have h3 : ¬r.val = root.val := fun h2 => h (Fin.ext h2)
      simp only [h, h3, if_false]
  · exact Runs.step' (fun _ => rfl) (.bcast root (fun r => [xs r]) 1 (fun _ => rfl)) (Runs.fin' (fun r => rfl))
  · refine Runs.step' (fun _ => rfl) (.allgather (fun r => [xs r]) 1 (fun _ => rfl)) (Runs.fin' (fun r => ?_))
    rw [← hmap, ← List.flatMap_def]
    simp
  · refine Runs.step' (fun _ => rfl) (.gatherOne root xs) (Runs.fin' (fun r => ?_))
    by_cases h : r = root
    · subst h
      simp only [if_true]
    · have h3 : ¬r.val = root.val := fun h2 => h (Fin.ext h2)
      simp only [h, h3, if_false]

/-! ## concrete cases -/

/-- Two ranks with tables of two columns: one row and two rows. -/
example : Runs (fun r : Fin 2 => gathervTable 0 r.val (2, (![[1, 2], [3, 4, 5, 6]] r)) (7, [8]))
    (fun r => ok (if r.val = 0 then (2, [1, 2, 3, 4, 5, 6]) else (7, [8]))) := by
  have h := C68_gatherv_table_partial (n := 2) 0 2 (by norm_num) ![[[1, 2]], [[3, 4], [5, 6]]] (fun _ => (7, [8]))
    (fun r => by fin_cases r <;> simp [table]) (by simp) (fun r _ => by fin_cases r <;> simp) ⟨0, by simp⟩
  convert h using 2 with r r <;> fin_cases r <;> simp

/-- Two columns on the first rank, three on the second: five elements do not fit into two rows of two. -/
example (x : Fin 2 → Res (ℕ × List ℕ)) :
    ¬Runs (fun r : Fin 2 => gathervTable 0 r.val (![2, 3] r, (![[1, 2], [3, 4, 5]] r)) (7, [8])) x :=
  C68_gatherv_table_columns_differ (n := 2) 0 ![2, 3] ![[1, 2], [3, 4, 5]] (fun _ => (7, [8])) (by simp) 0 rfl (by simp) (by simp)
    (fun r => by fin_cases r <;> simp) x

/-- Three ranks reduce with subtraction to the second. -/
example : Runs (fun r : Fin 3 => reduceOne (fun a b : ℤ => a - b) 1 r.val (![10, 3, 4] r) 0)
    (fun r => ok (if r = 1 then 11 else 0)) := by
  obtain ⟨⟨y, h1, -, h2⟩, -⟩ := C68_numbers (fun a b : ℤ => a - b) (1 : Fin 3) ![10, 3, 4] (fun _ => 0) (fun _ => [])
  have : y = 11 := by
    have h3 : combineOne (fun a b : ℤ => a - b) (List.ofFn ![10, 3, 4]) = some 11 := by simp [combineOne, List.ofFn_succ]
    rw [h3] at h1
    exact (Option.some.inj h1).symm
  subst this
  exact h2

end Verif.Mgr
