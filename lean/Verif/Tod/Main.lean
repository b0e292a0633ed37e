import Verif.Tod.Middle

/-!
# Correctness of `convolve`
-/

namespace Verif.Tod
open Verif Res Spmd

variable {F : Type} [Arith F]

theorem perm_of_filters {β : Type} (key : β → Nat) (l : List β) : ∀ n,
    (((List.range n).map (fun d => l.filter (fun x => key x == d))).flatten).Perm
      (l.filter (fun x => decide (key x < n))) := by
  intro n
  induction n with
  | zero => simp
  | succ n ih =>
    rw [List.range_succ, List.map_append, List.flatten_append]
    simp only [List.map_cons, List.map_nil, List.flatten_cons, List.flatten_nil, List.append_nil]
    have h := List.filter_append_perm (fun x => decide (key x < n)) (l.filter (fun x => decide (key x < n + 1)))
    rw [List.filter_filter, List.filter_filter] at h
    have e1 : l.filter (fun x => decide (key x < n) && decide (key x < n + 1)) = l.filter (fun x => decide (key x < n)) := by
      apply List.filter_congr; intro x _
      by_cases h : key x < n
      · have : key x < n + 1 := by omega
        simp [h, this]
      · simp [h]
    have e2 : l.filter (fun x => (!decide (key x < n)) && decide (key x < n + 1)) = l.filter (fun x => key x == n) := by
      apply List.filter_congr; intro x _
      rw [Bool.eq_iff_iff]
      simp; omega
    rw [e1, e2] at h
    exact (ih.append_right _).trans h

theorem sum_map_le {β : Type} (f g : β → Nat) : ∀ l : List β, (∀ x ∈ l, f x ≤ g x) →
    (l.map f).sum ≤ (l.map g).sum := by
  intro l
  induction l with
  | nil => intro _; simp
  | cons a l ih =>
    intro h
    have h1 := h a (by simp)
    have h2 := ih (fun x hx => h x (by simp [hx]))
    simp only [List.map_cons, List.sum_cons]; omega

theorem buckets_perm {cores : Nat} {bounds : List F} (hb : bounds.length = cores) (hc : 0 < cores)
    (rows : List (Row F)) : (buckets cores bounds rows).flatten.Perm rows := by
  unfold buckets bucket
  set z := rows.zip (owners cores bounds 0 (rows.map Row.theta)) with hz
  have h := (perm_of_filters (fun p : Row F × Nat => p.2) z cores).map Prod.fst
  rw [List.map_flatten, List.map_map] at h
  have hall : z.filter (fun x => decide (x.2 < cores)) = z := by
    rw [List.filter_eq_self]
    intro p hp
    have := (List.of_mem_zip hp).2
    exact decide_eq_true (owners_lt hb _ 0 hc _ this)
  rw [hall, hz, List.map_fst_zip (by simp)] at h
  exact h

theorem bucket_length_congr (cores : Nat) (bounds : List F) (rows rows' : List (Row F))
    (h : rows.map Row.theta = rows'.map Row.theta) (d : Nat) :
    (bucket cores bounds 0 rows d).length = (bucket cores bounds 0 rows' d).length := by
  have hl : rows.length = rows'.length := by simpa using congrArg List.length h
  have key : ∀ rs : List (Row F), (bucket cores bounds 0 rs d).length =
      ((owners cores bounds 0 (rs.map Row.theta)).filter (fun o => o == d)).length := by
    intro rs
    unfold bucket
    have : owners cores bounds 0 (rs.map Row.theta) =
        (rs.zip (owners cores bounds 0 (rs.map Row.theta))).map Prod.snd := by
      rw [List.map_snd_zip (by simp)]
    conv_rhs => rw [this, List.filter_map, List.length_map]
    rw [List.length_map]
    rfl
  rw [key, key, h]

theorem localHits_congr (nbin : Nat) (rows rows' : List (Row F)) (h : rows.map Row.theta = rows'.map Row.theta) :
    localHits nbin rows = localHits nbin rows' := by
  have key : ∀ rs : List (Row F), localHits nbin rs =
      foldRes (fun hits (t : F) => do
        let ibin ← toInt (Arith.div (foldGt t) (wbin nbin))
        let h ← rd hits ibin
        wr hits ibin (h + 1)) (List.replicate nbin 0) (rs.map Row.theta) := by
    intro rs; rw [foldRes_map]; rfl
  rw [key, key, h]

theorem localHits_length {nbin : Nat} {rows : List (Row F)} {hits : List Int} (h : localHits nbin rows = ok hits) :
    hits.length = nbin := by
  have key : ∀ (rs : List (Row F)) (h0 h1 : List Int), foldRes (histStep nbin) h0 rs = ok h1 → h1.length = h0.length := by
    intro rs
    induction rs with
    | nil => intro h0 h1 h; injection h with h; subst h; rfl
    | cons r rs ih =>
      intro h0 h1 h
      rw [foldRes_cons] at h
      cases hs : histStep nbin h0 r with
      | ok h2 =>
        rw [hs] at h
        rw [ih h2 h1 h]
        unfold histStep at hs
        rw [bind_eq_ok] at hs
        obtain ⟨b, _, hs⟩ := hs
        rw [bind_eq_ok] at hs
        obtain ⟨c, _, hs⟩ := hs
        obtain ⟨_, _, rfl⟩ := wr_eq_ok.mp hs
        simp
      | throw m => rw [hs] at h; cases h
      | ub w => rw [hs] at h; cases h
  have := key rows _ _ h
  simpa using this

theorem boundTable_length {nbin cores : Nat} {hits : List Int} {total : Int} {bounds : List F} (hc : 1 ≤ cores)
    (h : boundTable nbin cores hits total = ok bounds) : bounds.length = cores := by
  unfold boundTable at h
  rw [bind_eq_ok] at h
  obtain ⟨s, hs, h⟩ := h
  injection h with h
  have := forN_ok_inv (cores - 1) _ _ _ (fun i (s : Int × Int × List F) => s.2.2.length = i + 1) (by simp)
    (by
      intro i t t' _ ht hstep
      unfold boundStep at hstep
      simp only at hstep
      rw [bind_eq_ok] at hstep
      obtain ⟨p, _, hp⟩ := hstep
      injection hp with hp
      subst hp
      simp [ht]) hs
  rw [← h]; omega

theorem checkTheta_ok {rows : List (Row F)}
    (h : ∀ r ∈ rows, Arith.lt r.theta (Arith.ofInt 0) = false ∧ Arith.lt Arith.pi r.theta = false) :
    checkTheta rows = ok () := by
  unfold checkTheta
  induction rows with
  | nil => rfl
  | cons r rows ih =>
    rw [foldRes_cons]
    have := h r (by simp)
    rw [if_neg (by simp [this])]
    exact ih (fun x hx => h x (by simp [hx]))

theorem a2avRows_exec {n : Nat} (hn : 1 ≤ n) (segs : Nat → List (List (Row F)))
    (sc rc : Nat → List Nat) (outsize : Nat → Nat)
    (hs : ∀ r < n, (segs r).length = n)
    (hsc : ∀ r < n, sc r = (segs r).map (fun l => 5 * l.length))
    (hrc : ∀ r < n, rc r = (List.range n).map (fun s => 5 * ((segs s).getD r []).length))
    (hout : ∀ r < n, outsize r = 5 * ((List.range n).map (fun s => (segs s).getD r [])).flatten.length) :
    Exec n (fun r => a2avRows n (segs r).flatten (sc r) (segOffset n (sc r)) (rc r) (segOffset n (rc r)) (outsize r))
      (fun r => ((List.range n).map (fun s => (segs s).getD r [])).flatten) := by
  unfold a2avRows
  have hget : ∀ s < n, ∀ r < n, ((segs s).map flat).getD r [] = flat ((segs s).getD r []) := by
    intro s hs' r hr
    have : r < (segs s).length := by rw [hs s hs']; exact hr
    simp [List.getD_eq_getElem?_getD, this]
  have hmap : ∀ r < n, (List.range n).map (fun s => ((segs s).map flat).getD r []) =
      ((List.range n).map (fun s => (segs s).getD r [])).map flat := by
    intro r hr
    rw [List.map_map]
    apply List.map_congr_left
    intro s hs'
    rw [List.mem_range] at hs'
    exact hget s hs' r hr
  have hlenmap : ∀ l : List (List (Row F)), (l.map flat).map List.length = l.map (fun x => 5 * x.length) := by
    intro l; rw [List.map_map]; apply List.map_congr_left; intro x _; simp
  have h := a2av_exec (F := F) hn (fun r => (segs r).map flat) sc (fun r => segOffset n (sc r)) rc
    (fun r => segOffset n (rc r)) outsize
    (fun r hr => by rw [List.length_map]; exact hs r hr)
    (fun r hr => by rw [hsc r hr, hlenmap])
    (fun r hr => by
      rw [segOffset_eq, hsc r hr]
      apply List.map_congr_left
      intro k _
      unfold offs
      rw [← hlenmap, List.map_take])
    (fun r hr => by
      rw [hrc r hr]
      apply List.map_congr_left
      intro s hs'
      rw [List.mem_range] at hs'
      rw [hget s hs' r hr]; simp)
    (fun r hr => by
      rw [segOffset_eq, hrc r hr]
      apply List.map_congr_left
      intro k _
      unfold offs
      rw [hmap r hr]
      simp only [← List.map_take, List.map_map]
      congr 1
      apply List.map_congr_left
      intro s _
      simp [Function.comp])
    (fun r hr => by
      rw [hmap r hr, ← flat_flatten, flat_length, hout r hr])
  refine Exec.seq (Exec.congr hn (fun r hr => ?_) (fun _ _ => rfl) h) ?_
  · rw [flat_flatten]
  · refine Exec.local hn (fun r hr => ?_)
    rw [hmap r hr, ← flat_flatten, unflat_flat]

/-- The result for one rank: pointing untouched, the signal is the calibrated sample value, the last
column the global sample number. -/
def resultRows (e : Env F) (off : Int) (rows : List (Row F)) : List (Row F) :=
  rows.mapIdx (fun i r => ⟨r.phi, r.theta, r.psi, calibSpec e (val e r.phi r.theta r.psi), Arith.ofInt (off + i)⟩)

/-- Rows held by the ranks before `r`. -/
def before (R : Nat → List (Row F)) (r : Nat) : Nat := ((List.range r).map (fun s => (R s).length)).sum

/-- All rows of the job. -/
def total (R : Nat → List (Row F)) (n : Nat) : Nat := before R n

theorem length_le_before (R : Nat → List (Row F)) : ∀ n, ∀ r < n, (R r).length ≤ before R n := by
  intro n
  induction n with
  | zero => intro r hr; omega
  | succ n ih =>
    intro r hr
    have e : before R (n + 1) = before R n + (R n).length := by
      unfold before; rw [List.range_succ]; simp
    by_cases h : r = n
    · subst h; omega
    · have := ih r (by omega); omega

theorem calibrated_map (e : Env F) (off : Int) (rows : List (Row F)) :
    calibrated e ((setTime off rows).map (conv e)) = resultRows e off rows := by
  unfold calibrated resultRows calibSpec
  by_cases hr : rows.length = 0
  · have : rows = [] := List.length_eq_zero_iff.mp hr
    subst this; simp [setTime]
  · cases hc : (e.calibrate && !e.normalized)
    · rw [if_neg (by simp only [Bool.and_assoc, hc]; simp)]
      apply List.ext_getElem (by simp)
      intro i h1 h2
      simp [setTime, conv]
    · rw [if_pos (by simp only [Bool.and_assoc, hc]; simp [hr])]
      apply List.ext_getElem (by simp)
      intro i h1 h2
      simp [setTime, conv]

/-! ## the quantities of the exchange -/

/-- Rows of rank `r` after stamping and tagging. -/
def rows2 (R : Nat → List (Row F)) (r : Nat) : List (Row F) := tagSig (setTime (before R r) (R r))
/-- Rows that rank `s` sends to rank `d`. -/
def toRank (n : Nat) (bounds : List F) (R : Nat → List (Row F)) (s d : Nat) : List (Row F) :=
  bucket n bounds 0 (rows2 R s) d
/-- `inBetaSeg` of rank `s`. -/
def inSegOf (n : Nat) (bounds : List F) (R : Nat → List (Row F)) (s : Nat) : List Nat :=
  (List.range n).map (fun d => 5 * (toRank n bounds R s d).length)
/-- `outBetaSeg` of rank `r`. -/
def outSegOf (n : Nat) (bounds : List F) (R : Nat → List (Row F)) (r : Nat) : List Nat :=
  (List.range n).map (fun s => 5 * (toRank n bounds R s r).length)
/-- Rows received by rank `r`. -/
def recvOf (n : Nat) (bounds : List F) (R : Nat → List (Row F)) (r : Nat) : List (Row F) :=
  ((List.range n).map (fun s => toRank n bounds R s r)).flatten
/-- Send buffer of rank `s`. -/
def packedOf (n : Nat) (bounds : List F) (R : Nat → List (Row F)) (s : Nat) : List (Row F) :=
  (buckets n bounds (rows2 R s)).flatten

theorem packedOf_eq (n : Nat) (bounds : List F) (R : Nat → List (Row F)) (s : Nat) :
    packedOf n bounds R s = ((List.range n).map (toRank n bounds R s)).flatten := rfl

theorem rows2_length (R : Nat → List (Row F)) (r : Nat) : (rows2 R r).length = (R r).length := by
  simp [rows2]

theorem rows2_theta (R : Nat → List (Row F)) (r : Nat) : (rows2 R r).map Row.theta = (R r).map Row.theta := by
  unfold rows2
  rw [tagSig_map Row.theta (fun _ _ => rfl), setTime_map Row.theta (fun _ _ => rfl)]

theorem rows2_mem (R : Nat → List (Row F)) (r : Nat) : ∀ y ∈ rows2 R r, ∃ x ∈ R r,
    y.theta = x.theta ∧ y.phi = x.phi ∧ y.psi = x.psi := by
  intro y hy
  obtain ⟨i, hi, rfl⟩ := List.getElem_of_mem hy
  have h' : i < (R r).length := by rw [← rows2_length]; exact hi
  refine ⟨_, List.getElem_mem h', ?_, ?_, ?_⟩ <;> simp [rows2, tagSig, setTime]

theorem packedOf_perm {n : Nat} (hn : 1 ≤ n) {bounds : List F} (hb : bounds.length = n) (R : Nat → List (Row F))
    (s : Nat) : (packedOf n bounds R s).Perm (rows2 R s) := buckets_perm hb (by omega) _

theorem toRank_length (n : Nat) (bounds : List F) (R : Nat → List (Row F)) (s d : Nat) :
    (toRank n bounds R s d).length = (bucket n bounds 0 (R s) d).length :=
  bucket_length_congr n bounds _ _ (rows2_theta R s) d

theorem recvOf_length (n : Nat) (bounds : List F) (R : Nat → List (Row F)) (r : Nat) :
    5 * (recvOf n bounds R r).length = (outSegOf n bounds R r).sum := by
  simp only [recvOf, outSegOf, List.length_flatten, List.map_map]
  generalize List.range n = l
  induction l with
  | nil => rfl
  | cons a l ih => simp only [List.map_cons, List.sum_cons, Function.comp_apply]; omega

theorem segSize_outSeg {n : Nat} (hn : 1 ≤ n) (bounds : List F) (R : Nat → List (Row F)) (r : Nat) :
    segSize n (outSegOf n bounds R r) = 5 * (recvOf n bounds R r).length := by
  rw [segSize_eq (by omega) _ (by simp [outSegOf]), recvOf_length]

theorem recvOf_mem {n : Nat} {bounds : List F} {R : Nat → List (Row F)} {r : Nat} :
    ∀ y ∈ recvOf n bounds R r, ∃ s < n, ∃ x ∈ R s, y.theta = x.theta ∧ y.phi = x.phi ∧ y.psi = x.psi := by
  intro y hy
  unfold recvOf at hy
  rw [List.mem_flatten] at hy
  obtain ⟨l, hl, hy⟩ := hy
  obtain ⟨s, hs, rfl⟩ := List.mem_map.mp hl
  obtain ⟨x, hx, h⟩ := rows2_mem R s y (bucket_mem hy)
  exact ⟨s, List.mem_range.mp hs, x, hx, h⟩

theorem recvOf_le {n : Nat} (hn : 1 ≤ n) {bounds : List F} (hb : bounds.length = n) (R : Nat → List (Row F)) :
    ∀ r < n, (recvOf n bounds R r).length ≤ total R n := by
  intro r hr
  simp only [recvOf, List.length_flatten, List.map_map]
  unfold total before
  apply sum_map_le
  intro s hs
  have h1 : (toRank n bounds R s r).length ≤ (packedOf n bounds R s).length := by
    rw [packedOf_eq]
    have : toRank n bounds R s r ∈ (List.range n).map (toRank n bounds R s) :=
      List.mem_map.mpr ⟨r, List.mem_range.mpr hr, rfl⟩
    exact (List.sublist_flatten_of_mem this).length_le
  have h2 := (packedOf_perm hn hb R s).length_eq
  rw [rows2_length] at h2
  simp only [Function.comp]
  omega

/-- The rank takes part in the exchange: it has rows of its own or receives some. -/
def active (n : Nat) (bounds : List F) (R : Nat → List (Row F)) (r : Nat) : Prop :=
  R r ≠ [] ∨ ∃ s < n, bucket n bounds 0 (R s) r ≠ []

theorem active_iff {n : Nat} {bounds : List F} {R : Nat → List (Row F)} {r : Nat} :
    active n bounds R r ↔ (R r).length ≠ 0 ∨ (recvOf n bounds R r).length ≠ 0 := by
  unfold active
  have h1 : R r ≠ [] ↔ (R r).length ≠ 0 := by simp [List.length_eq_zero_iff]
  rw [h1]
  apply or_congr_right
  have h2 : (recvOf n bounds R r).length ≠ 0 ↔ ¬ (recvOf n bounds R r = []) := by simp [List.length_eq_zero_iff]
  rw [h2]
  unfold recvOf
  rw [List.flatten_eq_nil_iff]
  simp only [List.mem_map, List.mem_range, forall_exists_index, and_imp, forall_apply_eq_imp_iff₂]
  push Not
  refine exists_congr (fun s => and_congr_right (fun _ => ?_))
  have := toRank_length n bounds R s r
  rw [ne_eq, ne_eq, ← List.length_eq_zero_iff, ← List.length_eq_zero_iff, this]

/-- Tags written by `tagSig`, as a function of the row. -/
def TagOf (R : Nat → List (Row F)) (n : Nat) (tag : Row F → Nat) : Prop :=
  ∀ r < n, ∀ i (h : i < (rows2 R r).length), tag (rows2 R r)[i] = i ∧ readTag (rows2 R r)[i] = ok (i : Int)

theorem tagOf_exists {R : Nat → List (Row F)} {n : Nat} (hT : TagLaw F (total R n)) : ∃ tag, TagOf R n tag := by
  obtain ⟨tag, htag⟩ := tag_exists (F := F) hT
  refine ⟨tag, fun r hr i h => htag _ i ?_ (tagSig_get (setTime (before R r) (R r)) i h)⟩
  have := length_le_before R n r hr
  unfold total
  rw [rows2_length] at h
  omega

theorem scan_before (R : Nat → List (Row F)) (r : Nat) :
    ((List.range (r + 1)).map (fun r => ((R r).length : Int))).sum - ((R r).length : Int) = (before R r : Int) := by
  rw [List.range_succ, List.map_append, List.sum_append]
  unfold before
  simp only [List.map_cons, List.map_nil, List.sum_cons, List.sum_nil, add_zero, add_sub_cancel_right]
  generalize List.range r = l
  induction l with
  | nil => rfl
  | cons a l ih => simp only [List.map_cons, List.sum_cons]; rw [ih]; push_cast; rfl

theorem sum_total (R : Nat → List (Row F)) (n : Nat) :
    ((List.range n).map (fun r => ((setTime (before R r) (R r)).length : Int))).sum = (total R n : Int) := by
  unfold total before
  simp only [setTime_length]
  generalize List.range n = l
  induction l with
  | nil => rfl
  | cons a l ih => simp only [List.map_cons, List.sum_cons]; rw [ih]; push_cast; rfl

/-- Correctness of the first part of `convolve`. -/
theorem prepare_exec (e : Env F) {n : Nat} (hn : 1 ≤ n)
    (R : Nat → List (Row F)) {tag : Row F → Nat} (htag : TagOf R n tag)
    (hrange : ∀ r < n, ∀ y ∈ R r, Arith.lt y.theta (Arith.ofInt 0) = false ∧ Arith.lt Arith.pi y.theta = false)
    (H : Nat → List Int) (bounds : List F)
    (hH : ∀ r < n, localHits e.nbin (R r) = ok (H r))
    (hB : boundTable e.nbin n (sumCols ((List.range n).map H) e.nbin) (total R n) = ok bounds) :
    Exec n (fun r => prepare e n (R r)) (fun r => ⟨inSegOf n bounds R r, outSegOf n bounds R r,
      packedOf n bounds R r, (packedOf n bounds R r).map (fun y => (tag y : Int))⟩) := by
  have hb : bounds.length = n := boundTable_length hn hB
  have hth1 : ∀ r, (setTime (before R r) (R r)).map Row.theta = (R r).map Row.theta :=
    fun r => setTime_map Row.theta (fun _ _ => rfl) _ _
  unfold prepare
  refine Exec.seq (barrier_exec hn) ?_
  refine Exec.seq (scanSum_exec hn (fun r => ((R r).length : Int))) ?_
  simp only [scan_before]
  refine Exec.seq (Exec.local hn (v := fun _ => ()) (fun r hr => checkTheta_ok ?_)) ?_
  · intro y hy
    have : y.theta ∈ (setTime (before R r) (R r)).map Row.theta := List.mem_map.mpr ⟨y, hy, rfl⟩
    rw [hth1] at this
    obtain ⟨x, hx, he⟩ := List.mem_map.mp this
    rw [← he]; exact hrange r hr x hx
  refine Exec.seq (v := fun _ => bounds) ?_ ?_
  · unfold distribute
    refine Exec.seq (allSum_exec hn (fun r => ((setTime (before R r) (R r)).length : Int))) ?_
    refine Exec.seq (Exec.local hn (v := H) (fun r hr => ?_)) ?_
    · rw [localHits_congr e.nbin _ (R r) (hth1 r)]; exact hH r hr
    refine Exec.seq (allSumArr_exec hn H e.nbin (fun r hr => localHits_length (hH r hr))) ?_
    refine Exec.local hn (fun r hr => ?_)
    rw [sum_total]; exact hB
  refine Exec.seq (Exec.local hn (v := inSegOf n bounds R) (fun r hr => ?_)) ?_
  · rw [fillingBetaSeg_eq hb (by omega)]
    unfold inSegOf
    congr 1
    apply List.map_congr_left
    intro d _
    rw [toRank_length, bucket_length_congr n bounds _ _ (hth1 r) d]
  refine Exec.seq (barrier_exec hn) ?_
  refine Exec.seq (v := outSegOf n bounds R) (Exec.congr hn (fun _ _ => rfl) (fun r hr => ?_)
    (all2all_exec hn (inSegOf n bounds R) (fun r _ => by simp [inSegOf]))) ?_
  · apply List.map_congr_left
    intro s _
    simp [inSegOf, List.getD_eq_getElem?_getD, hr]
  refine Exec.seq (Exec.local hn (v := packedOf n bounds R) (fun r hr => ?_)) ?_
  · apply todRedistribution_eq hb (by omega) (rows2 R r)
    intro y hy
    obtain ⟨x, hx, he, _⟩ := rows2_mem R r y hy
    rw [he]; exact hrange r hr x hx
  refine Exec.seq (Exec.local hn (v := fun r => (packedOf n bounds R r).map (fun y => (tag y : Int))) (fun r hr => ?_)) ?_
  · apply mapM_ok
    intro y hy
    obtain ⟨i, hi, rfl⟩ := List.getElem_of_mem ((packedOf_perm hn hb R r).mem_iff.mp hy)
    rw [(htag r hr i hi).2, (htag r hr i hi).1]
  exact Exec.local hn (fun _ _ => rfl)

/-- Exchange in which all ranks take part. -/
theorem sendRecv_exec {n : Nat} (hn : 1 ≤ n) (segs : Nat → List (List (Row F)))
    (sc rc : Nat → List Nat) (size other outsize : Nat → Nat)
    (hact : ∀ r < n, size r ≠ 0 ∨ other r ≠ 0)
    (hs : ∀ r < n, (segs r).length = n)
    (hsc : ∀ r < n, sc r = (segs r).map (fun l => 5 * l.length))
    (hrc : ∀ r < n, rc r = (List.range n).map (fun s => 5 * ((segs s).getD r []).length))
    (hout : ∀ r < n, outsize r = 5 * ((List.range n).map (fun s => (segs s).getD r [])).flatten.length) :
    Exec n (fun r => sendRecv n (size r) (other r) (segs r).flatten (sc r) (rc r) (outsize r))
      (fun r => ((List.range n).map (fun s => (segs s).getD r [])).flatten) := by
  refine Exec.congr hn (fun r hr => ?_) (fun _ _ => rfl)
    (Exec.seq (Q := fun r _ => a2avRows n (segs r).flatten (sc r) (segOffset n (sc r)) (rc r)
      (segOffset n (rc r)) (outsize r)) (barrier_exec hn) (a2avRows_exec hn segs sc rc outsize hs hsc hrc hout))
  unfold sendRecv
  rw [if_pos]
  have := hact r hr
  simp only [ne_eq, Bool.or_eq_true, decide_eq_true_eq]
  omega

/-- Exchange in which nobody takes part. -/
theorem sendRecv_idle {n : Nat} (hn : 1 ≤ n) (rows : Nat → List (Row F)) (sc rc : Nat → List Nat)
    (size other outsize : Nat → Nat) (h : ∀ r < n, size r = 0 ∧ other r = 0) :
    Exec n (fun r => sendRecv n (size r) (other r) (rows r) (sc r) (rc r) (outsize r)) (fun _ => []) := by
  refine Exec.congr hn (fun r hr => ?_) (fun _ _ => rfl) (Exec.local hn (P := fun _ => ok []) (fun _ _ => rfl))
  unfold sendRecv
  rw [if_neg]
  simp [h r hr]

theorem getD_map_range {β : Type} {n r : Nat} (hr : r < n) (f : Nat → β) (d : β) :
    ((List.range n).map f).getD r d = f r := by
  simp [List.getD_eq_getElem?_getD, hr]

/-- Correctness of the second part of `convolve`. -/
theorem exchange_exec {e : Env F} {Ang : F → Prop} (hL : Laws e Ang) {n : Nat} (hn : 1 ≤ n)
    (R : Nat → List (Row F)) (hT : TagLaw F (total R n)) {tag : Row F → Nat} (htag : TagOf R n tag)
    (hA : ∀ r < n, ∀ y ∈ R r, Ang y.theta)
    (hv : ∀ r < n, ∀ y ∈ R r, ∃ v, sampleSpec e y.phi y.theta y.psi = ok v)
    (bounds : List F) (hb : bounds.length = n)
    (hpart : (∀ r < n, active n bounds R r) ∨ ∀ r < n, R r = []) :
    Exec n (fun r => exchange e n r (R r).length ⟨inSegOf n bounds R r, outSegOf n bounds R r,
      packedOf n bounds R r, (packedOf n bounds R r).map (fun y => (tag y : Int))⟩)
      (fun r => resultRows e (before R r) (R r)) := by
  have hperm := packedOf_perm hn hb R
  have hempty : (∀ r < n, R r = []) → ∀ s < n, ∀ d, toRank n bounds R s d = [] := by
    intro h s hs d
    apply List.length_eq_zero_iff.mp
    rw [toRank_length, h s hs]; rfl
  have hrempty : (∀ r < n, R r = []) → ∀ r < n, recvOf n bounds R r = [] := by
    intro h r hr
    unfold recvOf
    rw [List.flatten_eq_nil_iff]
    intro l hl
    obtain ⟨s, hs, rfl⟩ := List.mem_map.mp hl
    exact hempty h s (List.mem_range.mp hs) r
  have hpempty : (∀ r < n, R r = []) → ∀ r < n, packedOf n bounds R r = [] := by
    intro h r hr
    apply List.length_eq_zero_iff.mp
    rw [(hperm r).length_eq, rows2_length, h r hr]; rfl
  unfold exchange
  refine Exec.seq (v := recvOf n bounds R) ?_ ?_
  · simp only [segSize_outSeg hn]
    rcases hpart with hact | hemp
    · refine Exec.congr hn (fun r hr => ?_) (fun r hr => ?_) (sendRecv_exec (F := F) hn
        (fun s => (List.range n).map (toRank n bounds R s)) (inSegOf n bounds R) (outSegOf n bounds R)
        (fun r => (R r).length) (fun r => 5 * (recvOf n bounds R r).length)
        (fun r => 5 * (recvOf n bounds R r).length)
        (fun r hr => by have := active_iff.mp (hact r hr); omega)
        (fun s _ => by simp)
        (fun s _ => by simp [inSegOf, Function.comp_def])
        (fun r hr => by simp only [outSegOf, getD_map_range hr])
        (fun r hr => by simp only [recvOf, getD_map_range hr]))
      · rfl
      · simp only [recvOf, getD_map_range hr]
    · refine Exec.congr hn (fun _ _ => rfl) (fun r hr => (hrempty hemp r hr).symm)
        (sendRecv_idle hn (packedOf n bounds R) (inSegOf n bounds R) (outSegOf n bounds R)
          (fun r => (R r).length) (fun r => 5 * (recvOf n bounds R r).length)
          (fun r => 5 * (recvOf n bounds R r).length) (fun r hr => by
            simp only [hemp r hr, hrempty hemp r hr]; simp))
  refine Exec.seq (middle_exec hL hn hT (recvOf n bounds R) (recvOf_le hn hb R) ?_ ?_) ?_
  · intro r hr y hy
    obtain ⟨s, hs, x, hx, h1, _⟩ := recvOf_mem y hy
    rw [h1]; exact hA s hs x hx
  · intro r hr y hy
    obtain ⟨s, hs, x, hx, h1, h2, h3⟩ := recvOf_mem y hy
    rw [h1, h2, h3]; exact hv s hs x hx
  refine Exec.seq (v := fun s => (packedOf n bounds R s).map (conv e)) ?_ ?_
  · rcases hpart with hact | hemp
    · refine Exec.congr hn (fun r hr => ?_) (fun r hr => ?_) (sendRecv_exec (F := F) hn
        (fun r => (List.range n).map (fun s => (toRank n bounds R s r).map (conv e)))
        (outSegOf n bounds R) (inSegOf n bounds R)
        (fun r => (R r).length) (fun r => (recvOf n bounds R r).length) (fun r => 5 * (R r).length)
        (fun r hr => active_iff.mp (hact r hr))
        (fun s _ => by simp)
        (fun s _ => by simp [outSegOf, Function.comp_def])
        (fun r hr => by simp only [inSegOf, getD_map_range hr, List.length_map])
        (fun r hr => by
          congr 1
          have h1 := (hperm r).length_eq
          rw [rows2_length, packedOf_eq] at h1
          rw [← h1, List.length_flatten, List.length_flatten, List.map_map, List.map_map]
          congr 1
          apply List.map_congr_left
          intro s _
          simp only [Function.comp_apply, getD_map_range hr, List.length_map]))
      · have e1 : (recvOf n bounds R r).map (conv e) =
            ((List.range n).map (fun s => (toRank n bounds R s r).map (conv e))).flatten := by
          simp only [recvOf]
          rw [List.map_flatten, List.map_map]
          rfl
        rw [e1]
      · rw [packedOf_eq, List.map_flatten, List.map_map]
        congr 1
        apply List.map_congr_left
        intro s _
        simp only [Function.comp_apply, getD_map_range hr]
    · refine Exec.congr hn (fun _ _ => rfl) (fun r hr => by rw [hpempty hemp r hr]; rfl)
        (sendRecv_idle hn (fun r => (recvOf n bounds R r).map (conv e)) (outSegOf n bounds R) (inSegOf n bounds R)
          (fun r => (R r).length) (fun r => (recvOf n bounds R r).length)
          (fun r => 5 * (R r).length) (fun r hr => by
            simp only [hemp r hr, hrempty hemp r hr]; simp))
  refine Exec.seq (Exec.local hn (v := fun r => (rows2 R r).map (conv e)) (fun r hr => ?_)) ?_
  · have hz : ((packedOf n bounds R r).map (fun y => (tag y : Int))).zip ((packedOf n bounds R r).map (conv e)) =
        (packedOf n bounds R r).map (fun y => ((tag y : Int), conv e y)) := by
      rw [List.zip_map']
    by_cases h0 : (R r).length = 0
    · rw [if_neg (by simpa using h0)]
      have e1 : rows2 R r = [] := List.length_eq_zero_iff.mp (by rw [rows2_length, h0])
      have e2 : packedOf n bounds R r = [] := List.length_eq_zero_iff.mp (by rw [(hperm r).length_eq, rows2_length, h0])
      rw [e1, e2]
    · rw [if_pos h0, hz, untag (rows2 R r) (packedOf n bounds R r) (hperm r) (fun y => (tag y : Int)) (conv e) _ _
        (by simp [(hperm r).length_eq])]
      intro i hi
      rw [(htag r hr i hi).1]
  refine Exec.seq (reportTiming_exec hn hL.verb) ?_
  refine Exec.local hn (fun r hr => ?_)
  rw [show (rows2 R r).map (conv e) = (setTime (before R r) (R r)).map (conv e) from tagSig_map (conv e) (fun _ _ => rfl) _]
  rw [← calibrated_map]

/-- Correctness of `convolve` for every number of ranks and every distribution of the samples. -/
theorem convolve_exec {e : Env F} {Ang : F → Prop} (hL : Laws e Ang) {n : Nat} (hn : 1 ≤ n)
    (R : Nat → List (Row F)) (hT : TagLaw F (total R n))
    (hA : ∀ r < n, ∀ y ∈ R r, Ang y.theta)
    (hrange : ∀ r < n, ∀ y ∈ R r, Arith.lt y.theta (Arith.ofInt 0) = false ∧ Arith.lt Arith.pi y.theta = false)
    (hv : ∀ r < n, ∀ y ∈ R r, ∃ v, sampleSpec e y.phi y.theta y.psi = ok v)
    (H : Nat → List Int) (bounds : List F)
    (hH : ∀ r < n, localHits e.nbin (R r) = ok (H r))
    (hB : boundTable e.nbin n (sumCols ((List.range n).map H) e.nbin) (total R n) = ok bounds)
    (hpart : (∀ r < n, active n bounds R r) ∨ ∀ r < n, R r = []) :
    Exec n (fun r => convolve e n r (R r)) (fun r => resultRows e (before R r) (R r)) := by
  obtain ⟨tag, htag⟩ := tagOf_exists (F := F) hT
  exact Exec.seq (prepare_exec e hn R htag hrange H bounds hH hB)
    (exchange_exec hL hn R hT htag hA hv bounds (boundTable_length hn hB) hpart)

end Verif.Tod
