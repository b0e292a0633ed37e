import Verif.Index.Overflow
import Verif.Tod.Redist
import Mathlib.Algebra.Order.BigOperators.Group.List

/-!
# C45: message counts and displacements are `int`

`Tod/Redist.lean` keeps the number of doubles per destination and their prefix sums as unbounded numbers.  Here the same
computations are modelled with the `int` arithmetic of the code (`levels::arr<int>`, `std::vector<int>`).
-/

namespace Verif.Tod
open Verif Res Verif.Harm

variable {F : Type} [Arith F]

/-- Body of the loop of `fillingBetaSeg` with `int` counts: `inBetaSeg[corenum] += 5`, src/conviqt_math.cpp:348-367. -/
def fillStep32 (cores : Nat) (bounds : List F) (s : Nat × List Int) (row : Row F) : Res (Nat × List Int) := do
  let c ← ownerStep cores bounds s.1 row.theta
  let x ← rd s.2 (c : Int)
  let y ← i32 (x + 5)
  let seg ← wr s.2 (c : Int) y
  ok (c, seg)

/-- `fillingBetaSeg` with `int` counts, src/conviqt_math.cpp:328-374. -/
def fillingBetaSeg32 (cores : Nat) (bounds : List F) (rows : List (Row F)) : Res (List Int) := do
  let s ← foldRes (fillStep32 cores bounds) (0, List.replicate cores 0) rows
  ok s.2

/-- The inner loop `for (jj = 0; jj <= ii; ++jj) acc[ii] += seg[jj]`, src/conviqt_math.cpp:424-427. -/
def sum32 (a : Int) (xs : List Int) : Res Int := foldRes (fun a x => i32 (a + x)) a xs

/-- The double loop computing the inclusive prefix sums, src/conviqt_math.cpp:419-428: `n` entries of `acc`. -/
def acc32 (seg : List Int) : Nat → Res (List Int)
  | 0 => ok []
  | n + 1 => do
    let l ← acc32 seg n
    let x ← sum32 0 (seg.take (n + 1))
    ok (l ++ [x])

/-- The displacements, src/conviqt_math.cpp:430-437. -/
def offsets32 (cores : Nat) (acc : List Int) : List Int :=
  (List.range cores).map (fun ii => if ii = 0 then 0 else acc.getD (ii - 1) 0)

/-- Counts and displacements a rank computes for the data it sends: `fillingBetaSeg` and the first part of
`todRedistribution5cm`. -/
def sendSide32 (cores : Nat) (bounds : List F) (rows : List (Row F)) : Res (List Int × List Int) := do
  let seg ← fillingBetaSeg32 cores bounds rows
  let acc ← acc32 seg cores
  ok (seg, offsets32 cores acc)

/-- Displacements and total size a rank computes from the counts it receives, src/conviqt_math.cpp:419-437. -/
def recvSide32 (cores : Nat) (outSeg : List Int) : Res (List Int × Int) := do
  let acc ← acc32 outSeg cores
  ok (offsets32 cores acc, acc.getD (cores - 1) 0)

/-! ## prefix sums -/

theorem sum32_ok (xs : List Int) : ∀ a : Int, 0 ≤ a → (∀ x ∈ xs, 0 ≤ x) → a + xs.sum ≤ 2147483647 →
    sum32 a xs = ok (a + xs.sum) := by
  induction xs with
  | nil => intro a _ _ _; simp [sum32]
  | cons x xs ih =>
    intro a ha hx hs
    have h0 : 0 ≤ xs.sum := List.sum_nonneg (fun y hy => hx y (by simp [hy]))
    have h1 : 0 ≤ x := hx x (by simp)
    simp only [List.sum_cons] at hs ⊢
    unfold sum32
    rw [foldRes_cons, i32_ok (by omega) (by omega)]
    show sum32 (a + x) xs = _
    rw [ih (a + x) (by omega) (fun y hy => hx y (by simp [hy])) (by omega)]
    congr 1; ring

theorem sum32_ub (xs : List Int) : ∀ a : Int, 0 ≤ a → (∀ x ∈ xs, 0 ≤ x) → a ≤ 2147483647 → 2147483647 < a + xs.sum →
    (sum32 a xs).IsUB := by
  induction xs with
  | nil => intro a _ _ h1 h2; simp at h2; omega
  | cons x xs ih =>
    intro a ha hx h1 hs
    have h0 : 0 ≤ x := hx x (by simp)
    simp only [List.sum_cons] at hs
    unfold sum32
    rw [foldRes_cons]
    rcases i32_cases (a + x) with e | e
    · rw [e]
      exact ih (a + x) (by omega) (fun y hy => hx y (by simp [hy])) (i32_eq_ok.mp e).2.2 (by omega)
    · rw [e]; trivial

theorem take_sum_le (xs : List Int) (hx : ∀ x ∈ xs, 0 ≤ x) (n : Nat) : (xs.take n).sum ≤ xs.sum := by
  have h := List.sum_append (l₁ := xs.take n) (l₂ := xs.drop n)
  rw [List.take_append_drop] at h
  have : 0 ≤ (xs.drop n).sum := List.sum_nonneg (fun y hy => hx y (List.mem_of_mem_drop hy))
  omega

theorem acc32_ok (seg : List Int) (hx : ∀ x ∈ seg, 0 ≤ x) (hs : seg.sum ≤ 2147483647) : ∀ n,
    acc32 seg n = ok ((List.range n).map (fun ii => (seg.take (ii + 1)).sum)) := by
  intro n
  induction n with
  | zero => rfl
  | succ n ih =>
    unfold acc32
    rw [ih, ok_bind, sum32_ok _ 0 le_rfl (fun x h => hx x (List.mem_of_mem_take h))
      (by have := take_sum_le seg hx (n + 1); omega), ok_bind, List.range_succ, List.map_append]
    simp

theorem acc32_cases (seg : List Int) (hx : ∀ x ∈ seg, 0 ≤ x) : ∀ n,
    (∃ l, acc32 seg n = ok l) ∨ (acc32 seg n).IsUB := by
  intro n
  induction n with
  | zero => exact Or.inl ⟨_, rfl⟩
  | succ n ih =>
    unfold acc32
    rcases ih with ⟨l, e⟩ | h
    · rw [e, ok_bind]
      have hx' : ∀ x ∈ seg.take (n + 1), 0 ≤ x := fun x h => hx x (List.mem_of_mem_take h)
      by_cases hb : 0 + (seg.take (n + 1)).sum ≤ 2147483647
      · rw [sum32_ok _ 0 le_rfl hx' hb]; exact Or.inl ⟨_, rfl⟩
      · have := sum32_ub _ 0 le_rfl hx' (by omega) (by omega)
        cases h : sum32 0 (seg.take (n + 1)) with
        | ok a => rw [h] at this; exact this.elim
        | throw a => rw [h] at this; exact this.elim
        | ub a => exact Or.inr trivial
    · cases e : acc32 seg n with
      | ok a => rw [e] at h; exact h.elim
      | throw a => rw [e] at h; exact h.elim
      | ub a => exact Or.inr trivial

theorem acc32_ub (seg : List Int) (hx : ∀ x ∈ seg, 0 ≤ x) (hs : 2147483647 < seg.sum) (hl : 0 < seg.length) :
    (acc32 seg seg.length).IsUB := by
  obtain ⟨n, hn⟩ : ∃ n, seg.length = n + 1 := ⟨seg.length - 1, by omega⟩
  rw [hn]
  unfold acc32
  rcases acc32_cases seg hx n with ⟨l, e⟩ | h
  · rw [e, ok_bind, ← hn, List.take_length]
    have := sum32_ub seg 0 le_rfl hx (by omega) (by omega)
    cases h : sum32 0 seg with
    | ok a => rw [h] at this; exact this.elim
    | throw a => rw [h] at this; exact this.elim
    | ub a => trivial
  · cases e : acc32 seg n with
    | ok a => rw [e] at h; exact h.elim
    | throw a => rw [e] at h; exact h.elim
    | ub a => trivial

/-! ## counts -/

theorem fill32_ok {cores : Nat} {bounds : List F} (hb : bounds.length = cores)
    (rows : List (Row F)) : ∀ (c : Nat) (seg : Nat → Int), c < cores → (∀ d < cores, 0 ≤ seg d) →
    (∀ d < cores, seg d + 5 * ((bucket cores bounds c rows d).length : Int) ≤ 2147483647) →
    ∃ c', foldRes (fillStep32 cores bounds) (c, (List.range cores).map seg) rows =
      ok (c', (List.range cores).map (fun d => seg d + 5 * ((bucket cores bounds c rows d).length : Int))) := by
  induction rows with
  | nil => intro c seg _ _ _; exact ⟨c, by simp [bucket_nil]⟩
  | cons r rows ih =>
    intro c seg hc h0 hm
    rw [foldRes_cons]
    have ho := own_lt hb hc r.theta
    set o := own cores bounds c r.theta with ho_def
    have hbd : ∀ d, ((bucket cores bounds c (r :: rows) d).length : Int) =
        (if o = d then 1 else 0) + ((bucket cores bounds o rows d).length : Int) := by
      intro d
      rw [bucket_cons, ← ho_def]
      split
      · simp [add_comm]
      · simp
    have hstep : fillStep32 cores bounds (c, (List.range cores).map seg) r =
        ok (o, (List.range cores).map (fun d => if d = o then seg d + 5 else seg d)) := by
      unfold fillStep32
      simp only
      rw [ownerStep_eq hb hc, ← ho_def]
      simp only [ok_bind]
      rw [rd_nat (by simpa using ho)]
      simp only [ok_bind, List.getElem_map, List.getElem_range]
      have h1 := hm o ho
      rw [hbd o, if_pos rfl] at h1
      have h2 := h0 o ho
      rw [i32_ok (by omega) (by omega), ok_bind, wr_nat _ (by simpa using ho)]
      simp only [ok_bind]
      congr 2
      apply List.ext_getElem (by simp)
      intro i h1 h2
      simp only [List.getElem_set, List.getElem_map, List.getElem_range]
      by_cases e : o = i
      · subst e; simp
      · rw [if_neg e, if_neg (fun h => e h.symm)]
    rw [hstep]
    have key : ∀ d, (if d = o then seg d + 5 else seg d) + 5 * ((bucket cores bounds o rows d).length : Int) =
        seg d + 5 * ((bucket cores bounds c (r :: rows) d).length : Int) := by
      intro d
      rw [hbd d]
      by_cases e : o = d
      · subst e; simp; ring
      · rw [if_neg e, if_neg (fun h => e h.symm)]; ring
    obtain ⟨c', h⟩ := ih o (fun d => if d = o then seg d + 5 else seg d) ho
      (fun d hd => by split <;> have := h0 d hd <;> omega)
      (fun d hd => by rw [key d]; exact hm d hd)
    refine ⟨c', ?_⟩
    simp only [Res.bind]
    rw [h]
    congr 2
    apply List.map_congr_left
    intro d _
    exact key d

theorem fill32_ub {cores : Nat} {bounds : List F} (hb : bounds.length = cores) (d : Nat) (hd : d < cores)
    (rows : List (Row F)) : ∀ (c : Nat) (seg : Nat → Int), c < cores →
    seg d ≤ 2147483647 → (2147483647 < seg d + 5 * ((bucket cores bounds c rows d).length : Int)) →
    (foldRes (fillStep32 cores bounds) (c, (List.range cores).map seg) rows).IsUB := by
  induction rows with
  | nil => intro c seg _ h1 h2; simp [bucket_nil] at h2; omega
  | cons r rows ih =>
    intro c seg hc h1 hm
    rw [foldRes_cons]
    have ho := own_lt hb hc r.theta
    set o := own cores bounds c r.theta with ho_def
    have hbd : ∀ d, ((bucket cores bounds c (r :: rows) d).length : Int) =
        (if o = d then 1 else 0) + ((bucket cores bounds o rows d).length : Int) := by
      intro d
      rw [bucket_cons, ← ho_def]
      split
      · simp [add_comm]
      · simp
    have hstep : fillStep32 cores bounds (c, (List.range cores).map seg) r = (i32 (seg o + 5)).bind fun _ =>
        ok (o, (List.range cores).map (fun d => if d = o then seg d + 5 else seg d)) := by
      unfold fillStep32
      simp only
      rw [ownerStep_eq hb hc, ← ho_def]
      simp only [ok_bind]
      rw [rd_nat (by simpa using ho)]
      simp only [ok_bind, List.getElem_map, List.getElem_range]
      rcases i32_cases (seg o + 5) with e | e
      · rw [e, ok_bind, wr_nat _ (by simpa using ho)]
        simp only [ok_bind, Res.bind]
        congr 2
        apply List.ext_getElem (by simp)
        intro i h1 h2
        simp only [List.getElem_set, List.getElem_map, List.getElem_range]
        by_cases e : o = i
        · subst e; simp
        · rw [if_neg e, if_neg (fun h => e h.symm)]
      · rw [e]; rfl
    rw [hstep]
    rcases i32_cases (seg o + 5) with e | e
    · rw [e]
      simp only [Res.bind]
      refine ih o (fun d => if d = o then seg d + 5 else seg d) ho ?_ ?_
      · split
        · rename_i hdo; rw [hdo]; exact (i32_eq_ok.mp e).2.2
        · exact h1
      · rw [hbd d] at hm
        by_cases e' : o = d
        · subst e'; simp only [if_true] at hm ⊢; linarith
        · rw [if_neg e'] at hm; rw [if_neg (fun h => e' h.symm)]; linarith
    · rw [e]; trivial

theorem bucket_length_le (cores : Nat) (bounds : List F) (c : Nat) (rows : List (Row F)) (d : Nat) :
    (bucket cores bounds c rows d).length ≤ rows.length := by
  unfold bucket
  rw [List.length_map]
  refine (List.length_filter_le _ _).trans ?_
  rw [List.length_zip]
  exact Nat.min_le_left _ _

/-- The counts a rank has to send, in doubles: `5` for every sample owned by the destination. -/
def exactCounts (cores : Nat) (bounds : List F) (rows : List (Row F)) : List Int :=
  (List.range cores).map (fun d => 5 * ((bucket cores bounds 0 rows d).length : Int))

theorem exactCounts_eq {cores : Nat} {bounds : List F} (hb : bounds.length = cores) (hc : 0 < cores) (rows : List (Row F)) :
    fillingBetaSeg cores bounds rows = ok ((exactCounts cores bounds rows).map Int.toNat) := by
  rw [fillingBetaSeg_eq hb hc]
  unfold exactCounts
  rw [List.map_map]
  congr 1

theorem exactCounts_sum {cores : Nat} {bounds : List F} (hb : bounds.length = cores) (hc : 0 < cores) (rows : List (Row F)) :
    (exactCounts cores bounds rows).sum = 5 * (rows.length : Int) := by
  have h := sum_bucket_length hb rows 0 hc
  unfold exactCounts
  rw [← h]
  generalize bucket cores bounds 0 rows = g
  generalize List.range cores = l
  induction l with
  | nil => simp
  | cons x l ih => simp only [List.map_cons, List.sum_cons, ih]; push_cast; ring

/-- **C45 (sending side).** For every boundary table and every list of samples, a rank that holds `n` samples computes the
exact counts and displacements of its messages if and only if `n ≤ 429496729` (5 doubles per sample in an `int`), however
the samples are distributed over the destinations; with more samples the computation is undefined. -/
theorem C45_send_iff (cores : Nat) (hc : 0 < cores) (bounds : List F) (hb : bounds.length = cores) (rows : List (Row F)) :
    (rows.length ≤ 429496729 →
      sendSide32 cores bounds rows = ok (exactCounts cores bounds rows,
        (List.range cores).map (fun i => ((exactCounts cores bounds rows).take i).sum))) ∧
    (429496729 < rows.length → (sendSide32 cores bounds rows).IsUB) := by
  have hnn : ∀ x ∈ exactCounts cores bounds rows, 0 ≤ x := by
    intro x hx
    unfold exactCounts at hx
    obtain ⟨d, _, rfl⟩ := List.mem_map.mp hx
    omega
  have hsum := exactCounts_sum hb hc rows
  have hrep : List.replicate cores (0 : Int) = (List.range cores).map (fun _ => 0) := by
    rw [List.map_const', List.length_range]
  have hfill : (∀ d < cores, 5 * ((bucket cores bounds 0 rows d).length : Int) ≤ 2147483647) →
      fillingBetaSeg32 cores bounds rows = ok (exactCounts cores bounds rows) := by
    intro h
    obtain ⟨c', e⟩ := fill32_ok hb rows 0 (fun _ => 0) hc (fun _ _ => le_rfl) (fun d hd => by simpa using h d hd)
    unfold fillingBetaSeg32
    rw [hrep, e]
    simp [exactCounts]
  constructor
  · intro hn
    unfold sendSide32
    rw [hfill (fun d _ => by have := bucket_length_le cores bounds 0 rows d; omega), ok_bind,
      acc32_ok _ hnn (by omega), ok_bind]
    congr 2
    unfold offsets32
    apply List.map_congr_left
    intro i hi
    rw [List.mem_range] at hi
    by_cases h : i = 0
    · simp [h]
    · rw [if_neg h, List.getD_eq_getElem?_getD]
      simp [show i - 1 < cores by omega, show i - 1 + 1 = i by omega]
  · intro hn
    unfold sendSide32
    by_cases h : ∀ d < cores, 5 * ((bucket cores bounds 0 rows d).length : Int) ≤ 2147483647
    · rw [hfill h, ok_bind]
      have hl : (exactCounts cores bounds rows).length = cores := by simp [exactCounts]
      have := acc32_ub _ hnn (by omega) (by omega)
      rw [hl] at this
      cases e : acc32 (exactCounts cores bounds rows) cores with
      | ok a => rw [e] at this; exact this.elim
      | throw a => rw [e] at this; exact this.elim
      | ub a => trivial
    · push Not at h
      obtain ⟨d, hd, h⟩ := h
      have := fill32_ub hb d hd rows 0 (fun _ => 0) hc (by simp) (by simpa using h)
      unfold fillingBetaSeg32
      rw [hrep]
      cases e : foldRes (fillStep32 cores bounds) (0, (List.range cores).map (fun _ => (0 : Int))) rows with
      | ok a => rw [e] at this; exact this.elim
      | throw a => rw [e] at this; exact this.elim
      | ub a => trivial

/-- **C45 (receiving side).** A rank that receives the (exact) counts `outSeg` computes the right displacements and buffer
size if and only if it receives at most `2^31-1` doubles in total, whatever its own number of samples. -/
theorem C45_recv_iff (outSeg : List Int) (hl : 0 < outSeg.length) (hx : ∀ x ∈ outSeg, 0 ≤ x) :
    (outSeg.sum ≤ 2147483647 → recvSide32 outSeg.length outSeg =
      ok ((List.range outSeg.length).map (fun i => (outSeg.take i).sum), outSeg.sum)) ∧
    (2147483647 < outSeg.sum → (recvSide32 outSeg.length outSeg).IsUB) := by
  constructor
  · intro h
    unfold recvSide32
    rw [acc32_ok _ hx h, ok_bind]
    congr 2
    · unfold offsets32
      apply List.map_congr_left
      intro i hi
      rw [List.mem_range] at hi
      by_cases h : i = 0
      · simp [h]
      · rw [if_neg h, List.getD_eq_getElem?_getD]
        simp [show i - 1 < outSeg.length by omega, show i - 1 + 1 = i by omega]
    · rw [List.getD_eq_getElem?_getD]
      simp [hl, show outSeg.length - 1 + 1 = outSeg.length by omega]
  · intro h
    unfold recvSide32
    have := acc32_ub _ hx h hl
    cases e : acc32 outSeg outSeg.length with
    | ok a => rw [e] at this; exact this.elim
    | throw a => rw [e] at this; exact this.elim
    | ub a => trivial

/-! ## data cube -/

/-- Conversion of a `long` to `int` (implementation-defined, modulo 2^32 in every compiler the project supports). -/
def narrow (x : Int) : Int := Int.bmod x 4294967296

theorem narrow_eq_iff {x : Int} (h : 0 ≤ x) : narrow x = x ↔ x ≤ 2147483647 := by
  unfold narrow
  rw [Int.bmod_def]
  split <;> omega

/-- `sendcounts[core] = sendcounts_lat[core] * bufsize`, src/conviqt_math.cpp:1147-1148 (`int * long`, stored in `int`). -/
def cubeCounts (lat : List Int) (bufsize : Int) : List Int := lat.map (fun x => narrow (x * bufsize))

/-- `sdispls[core] = sdispls[core-1] + sendcounts[core-1]`, src/conviqt_math.cpp:1149-1155: displacements of the ranks
that follow one with displacement `d`. -/
def displs32 : Int → List Int → Res (List Int)
  | _, [] => ok []
  | d, [_] => ok [d]
  | d, c :: cs => do
    let e ← i32 (d + c)
    let rest ← displs32 e cs
    ok (d :: rest)

/-- Counts and displacements of the exchange of rings, src/conviqt_math.cpp:1129-1156. -/
def cubeSide (lat : List Int) (bufsize : Int) : Res (List Int × List Int) := do
  let d ← displs32 0 (cubeCounts lat bufsize)
  ok (cubeCounts lat bufsize, d)

theorem displs32_ok (cs : List Int) : ∀ d : Int, 0 ≤ d → (∀ x ∈ cs, 0 ≤ x) → d + cs.sum ≤ 2147483647 →
    displs32 d cs = ok ((List.range cs.length).map (fun i => d + (cs.take i).sum)) := by
  induction cs with
  | nil => intro d _ _ _; rfl
  | cons c cs ih =>
    intro d hd hx hs
    have h1 : 0 ≤ c := hx c (by simp)
    have h0 : 0 ≤ cs.sum := List.sum_nonneg (fun y hy => hx y (by simp [hy]))
    simp only [List.sum_cons] at hs
    cases cs with
    | nil => simp [displs32]
    | cons c' cs =>
      unfold displs32
      rw [i32_ok (by omega) (by omega), ok_bind, ih (d + c) (by omega) (fun y hy => hx y (by simp [hy])) (by omega), ok_bind]
      congr 1
      rw [List.length_cons (a := c), List.range_succ_eq_map]
      simp [add_assoc]

/-- **C45 (rings).** If all rings a rank exchanges, `bufsize = 2·nphi·npsi` doubles each, amount to at most `2^31-1`
doubles, all counts and displacements handed to MPI are exact. -/
theorem C45_cube_ok_partial (lat : List Int) (bufsize : Int) (hb : 0 ≤ bufsize) (hx : ∀ x ∈ lat, 0 ≤ x)
    (h : lat.sum * bufsize ≤ 2147483647) :
    cubeSide lat bufsize = ok (lat.map (· * bufsize), (List.range lat.length).map (fun i => (lat.take i).sum * bufsize)) := by
  have hle : ∀ x ∈ lat, x * bufsize ≤ 2147483647 := by
    intro x hxm
    have : x ≤ lat.sum := List.single_le_sum hx x hxm
    exact (mul_le_mul_of_nonneg_right this hb).trans h
  have hc : cubeCounts lat bufsize = lat.map (· * bufsize) := by
    unfold cubeCounts
    apply List.map_congr_left
    intro x hxm
    exact (narrow_eq_iff (mul_nonneg (hx x hxm) hb)).mpr (hle x hxm)
  have hsum : ∀ l : List Int, (l.map (· * bufsize)).sum = l.sum * bufsize := by
    intro l
    induction l with
    | nil => simp
    | cons a l ih => simp [ih, add_mul]
  unfold cubeSide
  rw [hc, displs32_ok _ 0 le_rfl ?_ ?_, ok_bind]
  · congr 2
    rw [List.length_map]
    apply List.map_congr_left
    intro i _
    rw [← List.map_take, hsum]
    simp
  · intro y hy
    obtain ⟨x, hxm, rfl⟩ := List.mem_map.mp hy
    exact mul_nonneg (hx x hxm) hb
  · rw [hsum]; omega

/-- **C45 (rings, converse).** If the rings for one destination amount to more than `2^31-1` doubles, the count handed to
MPI is wrong (or the displacements are undefined). -/
theorem C45_cube_wrong (lat : List Int) (bufsize : Int) (hb : 0 ≤ bufsize) (hx : ∀ x ∈ lat, 0 ≤ x) (x : Int) (hxm : x ∈ lat)
    (h : 2147483647 < x * bufsize) (d : List Int) : cubeSide lat bufsize ≠ ok (lat.map (· * bufsize), d) := by
  intro hc
  unfold cubeSide at hc
  obtain ⟨e, _, h2⟩ := bind_eq_ok.mp hc
  injection h2 with h2
  have h3 : cubeCounts lat bufsize = lat.map (· * bufsize) := congrArg Prod.fst h2
  unfold cubeCounts at h3
  have h4 := List.map_inj_left.mp h3 x hxm
  have := (narrow_eq_iff (mul_nonneg (hx x hxm) hb)).mp h4
  omega

/-- **C45 (violated for admissible limits).** A single rank with `lmax = 6000`, `beammmax = 14` that needs all
`ntheta ≥ lmax+1` rings passes a negative count: the limit is reached far below `LMAXMAX`. -/
theorem C45_cube_negative_count (ntheta : Int) (h1 : 6001 ≤ ntheta) (h2 : ntheta ≤ 6020) :
    ∃ c : Int, c < 0 ∧ cubeSide [ntheta] (2 * (2 * 6000 + 1) * (14 + 1)) = ok ([c], [0]) := by
  refine ⟨ntheta * 360030 - 4294967296, by omega, ?_⟩
  unfold cubeSide cubeCounts narrow
  simp only [List.map_cons, List.map_nil, displs32, ok_bind]
  rw [Int.bmod_def]
  norm_num
  split <;> omega

/-- The hypotheses are met by the default limits of the convolver: all 5026 rings (order 5 to 23) of `lmax = 5000`,
`beammmax = 14` on one rank, or spread over two. -/
example : cubeSide [5026] (2 * (2 * 5000 + 1) * 15) = ok ([1507950780], [0]) ∧
    cubeSide [2000, 3000] (2 * (2 * 5000 + 1) * 15) = ok ([600060000, 900090000], [0, 600060000]) := by decide

example : recvSide32 3 [5, 0, 10] = ok ([0, 5, 5], 15) ∧ (recvSide32 2 [2147483640, 10]).IsUB := by
  refine ⟨by decide, ?_⟩
  exact (C45_recv_iff [2147483640, 10] (by simp) (by simp)).2 (by simp)

/-- One rank with two samples sends itself 10 doubles. -/
example (b : F) (r : Row F) : ∃ o, sendSide32 1 [b] [r, r] = ok (exactCounts 1 [b] [r, r], o) ∧
    (exactCounts 1 [b] [r, r]).sum = 10 :=
  ⟨_, (C45_send_iff 1 one_pos [b] rfl [r, r]).1 (by simp), exactCounts_sum rfl one_pos _⟩

end Verif.Tod
