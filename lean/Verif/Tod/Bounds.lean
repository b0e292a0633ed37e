import Verif.Tod.Grid
import Mathlib.Data.List.Count
import Mathlib.Tactic.FieldSimp

/-!
# The colatitude distribution in exact arithmetic (C43)

Histogram and boundary table of `distribute_colatitudes` (src/conviqt_math.cpp:268-325).
-/

namespace Verif.Tod
open Verif Res RealArith Spmd

/-! ## histogram -/

/-- Bin of a colatitude. -/
noncomputable def binOf (nbin : Nat) (theta : ℝ) : ℤ := ⌊foldGt theta / (wbin nbin : ℝ)⌋

theorem wbin_real (nbin : Nat) : (wbin nbin : ℝ) = Real.pi / 2 / nbin := by
  unfold wbin; simp

theorem wbin_pos {nbin : Nat} (h : 0 < nbin) : 0 < (wbin nbin : ℝ) := by
  rw [wbin_real]; have := Real.pi_pos; positivity

theorem binOf_range {nbin : Nat} (hn : 0 < nbin) {t : ℝ} (h0 : 0 ≤ t) (h1 : t ≤ Real.pi) (h2 : t ≠ Real.pi / 2) :
    0 ≤ binOf nbin t ∧ binOf nbin t < nbin := by
  have hw := wbin_pos hn
  have a := foldGt_nonneg h0 h1
  have b := foldGt_lt h2
  unfold binOf
  refine ⟨Int.floor_nonneg.mpr (by positivity), ?_⟩
  rw [Int.floor_lt, div_lt_iff₀ hw, wbin_real]
  have : (0:ℝ) < nbin := by exact_mod_cast hn
  push_cast
  rw [mul_div_cancel₀ _ this.ne']
  exact b

/-- C43, histogram: for colatitudes in `[0, pi]` other than `pi/2` every access is in bounds and bin `j`
holds the number of samples whose folded colatitude is in the bin. -/
theorem C43_histogram_partial {nbin : Nat} (hn : 0 < nbin) (rows : List (Row ℝ))
    (h : ∀ y ∈ rows, 0 ≤ y.theta ∧ y.theta ≤ Real.pi ∧ y.theta ≠ Real.pi / 2) :
    localHits nbin rows = ok ((List.range nbin).map (fun j : ℕ =>
      ((rows.countP (fun y => decide (binOf nbin y.theta = (j : ℤ))) : ℕ) : ℤ))) := by
  unfold localHits
  have key : ∀ (rs : List (Row ℝ)) (f : Nat → ℤ), (∀ y ∈ rs, 0 ≤ y.theta ∧ y.theta ≤ Real.pi ∧ y.theta ≠ Real.pi / 2) →
      foldRes (histStep nbin) ((List.range nbin).map f) rs = ok ((List.range nbin).map (fun j : ℕ =>
        f j + ((rs.countP (fun y => decide (binOf nbin y.theta = (j : ℤ))) : ℕ) : ℤ))) := by
    intro rs
    induction rs with
    | nil => intro f _; simp
    | cons r rs ih =>
      intro f hr
      obtain ⟨g0, g1, g2⟩ := hr r (by simp)
      obtain ⟨b0, b1⟩ := binOf_range hn g0 g1 g2
      rw [foldRes_cons]
      have hst : histStep nbin ((List.range nbin).map f) r =
          ok ((List.range nbin).map (fun j : ℕ => f j + if binOf nbin r.theta = (j : ℤ) then 1 else 0)) := by
        unfold histStep
        simp only [toInt_real, ok_bind, div_def]
        rw [truncR_nonneg (div_nonneg (foldGt_nonneg g0 g1) (wbin_pos hn).le)]
        rw [show ⌊foldGt r.theta / (wbin nbin : ℝ)⌋ = binOf nbin r.theta from rfl]
        rw [rd_ok b0 (by simp; omega), ok_bind, wr_ok _ b0 (by simp; omega)]
        congr 1
        apply List.ext_getElem (by simp)
        intro i h1 h2
        rw [List.getElem_set]
        simp only [List.getElem_map, List.getElem_range]
        by_cases hi : (binOf nbin r.theta).toNat = i
        · rw [if_pos hi, if_pos (by omega), hi]
        · rw [if_neg hi, if_neg (by omega), add_zero]
      rw [hst]
      simp only [Res.bind]
      rw [ih _ (fun y hy => hr y (by simp [hy]))]
      congr 1
      apply List.map_congr_left
      intro j _
      rw [List.countP_cons]
      by_cases hj : binOf nbin r.theta = (j : ℤ)
      · simp [hj]; ring
      · simp [hj]
  have := key rows (fun _ => 0) h
  rw [show (List.replicate nbin (0 : ℤ)) = (List.range nbin).map (fun _ => 0) by
    apply List.ext_getElem (by simp); intro i h1 h2; simp]
  rw [this]
  simp

/-! ## boundary table -/

/-- If the scan of the histogram returns, it stopped at a later, non-empty bin. -/
theorem findBin_inv {F : Type} [Arith F] {hits : List ℤ} {target : F} : ∀ (k : Nat) (ibin bh left : ℤ) {i' l' : ℤ},
    1 ≤ k → (k : ℤ) = hits.length - ibin → -1 ≤ ibin →
    findBin hits target k ibin bh left = ok (i', l') →
    ibin < i' ∧ i' < hits.length ∧ ∃ x, hits[i'.toNat]? = some x ∧ x ≠ 0 := by
  intro k
  induction k with
  | zero => intro _ _ _ _ _ h; omega
  | succ k ih =>
    intro ibin bh left i' l' _ hk hib h
    rw [findBin, bind_eq_ok] at h
    obtain ⟨x, hx, h⟩ := h
    rw [rd_eq_ok] at hx
    have hlt : (ibin + 1).toNat < hits.length := (List.getElem?_eq_some_iff.mp hx.2).1
    split at h
    · rename_i hx0
      simp only at h
      split at h
      · injection h with h; injection h with h1 h2
        subst h1
        exact ⟨by omega, by omega, x, hx.2, hx0⟩
      · obtain ⟨a, b, c⟩ := ih (ibin + 1) _ _ (by omega) (by omega) (by omega) h
        exact ⟨by omega, b, c⟩
    · obtain ⟨a, b, c⟩ := ih (ibin + 1) _ _ (by omega) (by omega) (by omega) h
      exact ⟨by omega, b, c⟩

theorem findBin_nothrow {F : Type} [Arith F] {hits : List ℤ} {target : F} : ∀ (k : Nat) (ibin bh left : ℤ) m,
    findBin hits target k ibin bh left ≠ throw m := by
  intro k
  induction k with
  | zero => intro _ _ _ m h; cases h
  | succ k ih =>
    intro ibin bh left m h
    rw [findBin] at h
    unfold rd at h
    split at h
    · simp only [ok_bind] at h
      split at h
      · split at h
        · cases h
        · exact ih _ _ _ _ h
      · exact ih _ _ _ _ h
    · cases h

theorem boundTable_nothrow {F : Type} [Arith F] (nbin cores : Nat) (hits : List ℤ) (total : ℤ) (m : String) :
    (boundTable nbin cores hits total : Res (List F)) ≠ throw m := by
  have key : ∀ (k : Nat) (s : ℤ × ℤ × List F) m, forN k (boundStep nbin cores hits) s ≠ throw m := by
    intro k
    induction k with
    | zero => intro s m h; cases h
    | succ k ih =>
      intro s m h
      rw [forN_succ] at h
      cases hf : forN k (boundStep nbin cores hits) s with
      | ok t =>
        rw [hf, ok_bind] at h
        unfold boundStep at h
        simp only at h
        revert h
        generalize hq : (findBin (F := F) hits _ _ _ _ _) = q
        intro h
        cases q with
        | ok p => cases h
        | throw m' => exact findBin_nothrow _ _ _ _ _ hq
        | ub w => cases h
      | throw m' => exact ih _ _ hf
      | ub w => rw [hf] at h; cases h
  intro h
  unfold boundTable at h
  cases hf : forN (cores - 1) (boundStep nbin cores hits) (-1, total, [(Arith.ofInt 0 : F)]) with
  | ok t => rw [hf] at h; cases h
  | throw m' => exact key _ _ _ hf
  | ub w => rw [hf] at h; cases h

/-- Shape of the table: `0`, then the lower edges of strictly increasing, non-empty bins. -/
theorem boundTable_shape {F : Type} [Arith F] {nbin n : Nat} (hn : 1 ≤ n) {hits : List ℤ} (hl : hits.length = nbin) {total : ℤ}
    {b : List F} (h : boundTable nbin n hits total = ok b) :
    ∃ is : List ℕ, is.length = n - 1 ∧ is.Pairwise (· < ·) ∧
      (∀ i ∈ is, i < nbin ∧ ∃ x, hits[i]? = some x ∧ x ≠ 0) ∧
      b = Arith.ofInt 0 :: is.map (fun i : ℕ => Arith.mul (Arith.ofInt (i : ℤ)) (wbin nbin)) := by
  unfold boundTable at h
  rw [bind_eq_ok] at h
  obtain ⟨t, ht, h⟩ := h
  injection h with h
  subst h
  have := forN_ok_inv (n - 1) (boundStep nbin n hits) _ t (fun k (s : ℤ × ℤ × List F) =>
    ∃ is : List ℕ, is.length = k ∧ is.Pairwise (· < ·) ∧
      (∀ i ∈ is, i < nbin ∧ ∃ x, hits[i]? = some x ∧ x ≠ 0) ∧ (∀ i ∈ is, (i : ℤ) ≤ s.1) ∧
      -1 ≤ s.1 ∧ s.1 < nbin ∧
      s.2.2 = Arith.ofInt 0 :: is.map (fun i : ℕ => Arith.mul (Arith.ofInt (i : ℤ)) (wbin nbin)))
    ⟨[], by simp; omega⟩ ?_ ht
  · obtain ⟨is, h1, h2, h3, _, _, _, h4⟩ := this
    exact ⟨is, h1, h2, h3, h4⟩
  · rintro k s s' hk ⟨is, h1, h2, h3, h4, h5, h6, h7⟩ hs
    unfold boundStep at hs
    simp only at hs
    rw [bind_eq_ok] at hs
    obtain ⟨⟨i', l'⟩, hf, hs⟩ := hs
    injection hs with hs
    subst hs
    obtain ⟨g1, g2, x, g3, g4⟩ := findBin_inv _ _ _ _ (by omega) (by omega) h5 hf
    refine ⟨is ++ [i'.toNat], by simp [h1], ?_, ?_, ?_, by simp; omega, by simp; omega, ?_⟩
    · rw [List.pairwise_append]
      refine ⟨h2, by simp, ?_⟩
      intro a ha c hc
      simp at hc
      subst hc
      have := h4 a ha
      omega
    · intro i hi
      rcases List.mem_append.mp hi with hi | hi
      · exact h3 i hi
      · simp at hi; subst hi; exact ⟨by omega, x, g3, g4⟩
    · intro i hi
      rcases List.mem_append.mp hi with hi | hi
      · have := h4 i hi; simp; omega
      · simp at hi; subst hi; simp; omega
    · simp only
      rw [h7]
      simp
      congr 2
      omega

/-- C43: whenever the boundary table is computed without reading behind the histogram, it has one entry per
rank, starts at 0, is non-decreasing and stays in `[0, pi/2)`. -/
theorem C43_table_sorted_partial {nbin n : Nat} (hn : 1 ≤ n) {hits : List ℤ} (hl : hits.length = nbin)
    {total : ℤ} {b : List ℝ} (h : boundTable nbin n hits total = ok b) :
    b.length = n ∧ b.head? = some 0 ∧ b.Pairwise (· ≤ ·) ∧ ∀ x ∈ b, 0 ≤ x ∧ x < Real.pi / 2 := by
  obtain ⟨is, h1, h2, h3, rfl⟩ := boundTable_shape hn hl h
  have hpi := Real.pi_pos
  have hpos : ∀ i ∈ is, 0 ≤ (i : ℝ) * (wbin nbin : ℝ) ∧ (i : ℝ) * (wbin nbin : ℝ) < Real.pi / 2 := by
    intro i hi
    obtain ⟨hlt, _⟩ := h3 i hi
    have hnb : 0 < nbin := by omega
    have hw := wbin_pos hnb
    refine ⟨by positivity, ?_⟩
    have h5 : (i : ℝ) < nbin := by exact_mod_cast hlt
    have h6 : (nbin : ℝ) * (wbin nbin : ℝ) = Real.pi / 2 := by
      rw [wbin_real]
      have : (0:ℝ) < nbin := by exact_mod_cast hnb
      field_simp
    nlinarith
  refine ⟨by simp [h1]; omega, by simp, ?_, ?_⟩
  · rw [List.pairwise_cons]
    refine ⟨?_, ?_⟩
    · intro x hx
      obtain ⟨i, hi, rfl⟩ := List.mem_map.mp hx
      simpa using (hpos i hi).1
    · rw [List.pairwise_map]
      refine h2.imp_of_mem ?_
      intro a b ha hb hab
      have hnb : 0 < nbin := by have := (h3 a ha).1; omega
      have hw := wbin_pos hnb
      simp only [mul_def, ofInt_def, Int.cast_natCast]
      have : (a : ℝ) ≤ b := by exact_mod_cast hab.le
      nlinarith
  · intro x hx
    rcases List.mem_cons.mp hx with rfl | hx
    · simp; linarith
    · obtain ⟨i, hi, rfl⟩ := List.mem_map.mp hx
      simpa using hpos i hi

theorem count_nonzero : ∀ (is : List ℕ) (hits : List ℤ), is.Pairwise (· < ·) →
    (∀ i ∈ is, ∃ x, hits[i]? = some x ∧ x ≠ 0) → is.length ≤ hits.countP (fun x => decide (x ≠ 0)) := by
  intro is
  induction is with
  | nil => intro hits _ _; simp
  | cons i is ih =>
    intro hits hp hx
    rw [List.pairwise_cons] at hp
    obtain ⟨x, hx1, hx0⟩ := hx i (by simp)
    have hlt : i < hits.length := (List.getElem?_eq_some_iff.mp hx1).1
    have hdec : hits = hits.take i ++ (hits[i] :: hits.drop (i + 1)) := by
      rw [← List.drop_eq_getElem_cons hlt, List.take_append_drop]
    have hv : hits[i] = x := by
      rw [List.getElem?_eq_getElem hlt] at hx1; injection hx1
    rw [hdec, List.countP_append, List.countP_cons, hv]
    have h2 := ih (List.replicate (i + 1) 0 ++ hits.drop (i + 1)) hp.2 (by
      intro j hj
      obtain ⟨y, hy1, hy0⟩ := hx j (by simp [hj])
      have := hp.1 j hj
      refine ⟨y, ?_, hy0⟩
      rw [List.getElem?_append_right (by simp; omega)]
      simp
      rw [← hy1]; congr 1; omega)
    rw [List.countP_append, List.countP_replicate] at h2
    simp at h2
    simp [hx0]
    omega

/-- C43 (finding): if fewer than `n - 1` bins contain samples, the boundary search reads behind the end of the
histogram.  In particular, three ranks whose samples all have the same colatitude, or two ranks
without any sample. -/
theorem C43_few_bins_undefined {F : Type} [Arith F] {nbin n : Nat} (hn : 1 ≤ n) {hits : List ℤ} (hl : hits.length = nbin)
    (total : ℤ) (hfew : hits.countP (fun x => decide (x ≠ 0)) < n - 1) :
    ∃ w, (boundTable nbin n hits total : Res (List F)) = ub w := by
  cases h : (boundTable nbin n hits total : Res (List F)) with
  | ok b =>
    obtain ⟨is, h1, h2, h3, _⟩ := boundTable_shape hn hl h
    have := count_nonzero is hits h2 (fun i hi => (h3 i hi).2)
    omega
  | throw m => exact absurd h (boundTable_nothrow _ _ _ _ _)
  | ub w => exact ⟨w, rfl⟩

/-- Scan of the histogram when enough hits are left. -/
theorem findBin_ok {hits : List ℤ} {M : ℤ} (hM : ∀ x ∈ hits, 0 ≤ x ∧ x ≤ M) {target : ℝ} :
    ∀ (k p : Nat) (bh left : ℤ), k + p = hits.length + 1 → (hits.drop p).sum = left →
      (bh : ℝ) < target → target ≤ bh + left →
      ∃ q : Nat, ∃ l' : ℤ, findBin hits target k ((p : ℤ) - 1) bh left = ok ((q : ℤ), l') ∧ p ≤ q ∧ q < hits.length ∧
        (hits.drop (q + 1)).sum = l' ∧ target ≤ bh + left - l' ∧ (bh : ℝ) + left - l' < target + M := by
  intro k
  induction k with
  | zero =>
    intro p bh left hk hs h1 h2
    rw [List.drop_eq_nil_of_le (by omega)] at hs
    simp at hs; subst hs
    push_cast at h2; linarith
  | succ k ih =>
    intro p bh left hk hs h1 h2
    have hp : p < hits.length := by
      by_contra hc
      rw [List.drop_eq_nil_of_le (by omega)] at hs
      simp at hs; subst hs
      push_cast at h2; linarith
    rw [List.drop_eq_getElem_cons hp, List.sum_cons] at hs
    have hb := hM _ (List.getElem_mem hp)
    rw [findBin]
    rw [show ((p : ℤ) - 1 + 1) = (p : ℤ) by ring, rd_nat hp]
    simp only [ok_bind]
    split
    · rename_i hx
      split
      · rename_i ht
        rw [le_iff, ofInt_def] at ht
        refine ⟨p, _, rfl, le_rfl, hp, by omega, ?_, ?_⟩
        · push_cast at ht ⊢; linarith
        · push_cast
          have : (hits[p] : ℝ) ≤ M := by exact_mod_cast hb.2
          linarith
      · rename_i ht
        rw [le_iff, ofInt_def, not_le] at ht
        obtain ⟨q, l', a1, a2, a3, a4, a5, a6⟩ := ih (p + 1) (bh + hits[p]) (left - hits[p]) (by omega) (by omega) ht
          (by push_cast; linarith)
        refine ⟨q, l', ?_, by omega, a3, a4, ?_, ?_⟩
        · rw [← a1]; congr 1; push_cast; ring
        · push_cast at a5; linarith
        · push_cast at a6; linarith
    · rename_i hx
      rw [not_not] at hx
      obtain ⟨q, l', a1, a2, a3, a4, a5, a6⟩ := ih (p + 1) bh left (by omega) (by omega) h1 h2
      refine ⟨q, l', ?_, by omega, a3, a4, a5, a6⟩
      rw [← a1]; congr 1; push_cast; ring

/-- C43, sufficient condition: if the largest bin is not too full, `n (n-2) max ≤ 2 total`, the table is
computed without any access outside the histogram. -/
theorem C43_table_ok_partial {nbin n : Nat} {hits : List ℤ} (hl : hits.length = nbin)
    {M : ℤ} (hM : ∀ x ∈ hits, 0 ≤ x ∧ x ≤ M) (hpos : 0 < hits.sum) (hbal : (n : ℤ) * (n - 2) * M ≤ 2 * hits.sum) :
    ∃ b : List ℝ, boundTable nbin n hits hits.sum = ok b := by
  unfold boundTable
  have hM0 : 0 ≤ M := by
    cases hits with
    | nil => simp at hpos
    | cons x xs => have := hM x (by simp); omega
  suffices hmain : ∃ t, forN (n - 1) (boundStep nbin n hits) (-1, hits.sum, [(Arith.ofInt 0 : ℝ)]) = ok t by
    obtain ⟨t, ht⟩ := hmain
    rw [ht]; exact ⟨_, rfl⟩
  refine (fun h => ⟨h.choose, h.choose_spec.1⟩) (forN_inv (n - 1) (boundStep nbin n hits) (-1, hits.sum, [(Arith.ofInt 0 : ℝ)])
    (fun k s => ∃ p : Nat, s.1 = (p : ℤ) - 1 ∧ p ≤ hits.length ∧ (hits.drop p).sum = s.2.1 ∧
      (k + 1 < n → ((hits.sum : ℝ) / n - k * M / 2) * (n - k) ≤ s.2.1 ∧ (0 : ℝ) < s.2.1))
    ?_ ?_)
  · refine ⟨0, by simp, by omega, by simp, ?_⟩
    intro hk
    have hn0 : (0 : ℝ) < n := by exact_mod_cast (by omega : 0 < n)
    refine ⟨?_, by exact_mod_cast hpos⟩
    simp only [Nat.cast_zero, zero_mul, zero_div, sub_zero]
    rw [div_mul_cancel₀ _ hn0.ne']
  · rintro k ⟨ibin, left, tab⟩ hk ⟨p, hp1, hp2, hp3, hp4⟩
    simp only at hp1 hp2 hp3 hp4
    subst hp1
    obtain ⟨hp4, hp5⟩ := hp4 (by omega)
    have hd : (2 : ℝ) ≤ (n : ℝ) - k := by
      have : (k : ℝ) + 2 ≤ n := by exact_mod_cast (by omega : k + 2 ≤ n)
      linarith
    have hn0 : (0 : ℝ) < n := by exact_mod_cast (by omega : 0 < n)
    have hdiv : (Arith.ofInt ((n : ℤ) - ((k : ℤ) + 1) + 1) : ℝ) = (n : ℝ) - k := by
      simp; ring
    have htpos : 0 < (left : ℝ) / ((n : ℝ) - k) := by positivity
    have htle : (left : ℝ) / ((n : ℝ) - k) ≤ left := by
      rw [div_le_iff₀ (by linarith)]; nlinarith
    obtain ⟨q, l', a1, a2, a3, a4, a5, a6⟩ := findBin_ok hM (target := (left : ℝ) / ((n : ℝ) - k)) (nbin + 1 - p) p 0 left
      (by omega) hp3 (by simpa using htpos) (by simpa using htle)
    refine ⟨(q, l', tab ++ [Arith.mul (Arith.ofInt (q : ℤ)) (wbin nbin)]), ?_, q + 1, ?_, ?_, ?_, ?_⟩
    · unfold boundStep
      simp only
      rw [hdiv]
      simp only [div_def, ofInt_def]
      rw [show ((nbin : ℤ) - ((p : ℤ) - 1)).toNat = nbin + 1 - p by omega, a1]
      rfl
    · simp
    · omega
    · simpa using a4
    · intro hk2
      simp only
      have hd3 : (3 : ℝ) ≤ (n : ℝ) - k := by
        have : (k : ℝ) + 3 ≤ n := by exact_mod_cast (by omega : k + 3 ≤ n)
        linarith
      have hMr : (0 : ℝ) ≤ M := by exact_mod_cast hM0
      have hbr : (n : ℝ) * (n - 2) * M ≤ 2 * hits.sum := by exact_mod_cast hbal
      set d := (n : ℝ) - k with hdd
      set T := (hits.sum : ℝ) / n with hT
      have hTn : T * n = hits.sum := by rw [hT, div_mul_cancel₀ _ hn0.ne']
      have hq : d * ((left : ℝ) / d) = left := mul_div_cancel₀ _ (by linarith)
      set t := (left : ℝ) / d with ht
      have hl' : t * (d - 1) - M < l' := by
        push_cast at a6
        have : t * (d - 1) = left - t := by rw [← hq]; ring
        linarith
      have htT : T - k * M / 2 ≤ t := by
        have : (T - k * M / 2) * d ≤ t * d := by rw [mul_comm t d, hq]; exact hp4
        exact le_of_mul_le_mul_right this (by linarith)
      have hgoal : (T - (k + 1 : ℝ) * M / 2) * (d - 1) < l' := by nlinarith
      have hTk : 0 ≤ T - (k + 1 : ℝ) * M / 2 := by
        have h3 : (k : ℝ) + 1 ≤ n - 2 := by linarith
        have h4 : n * ((n - 2) * M) ≤ n * (2 * T) := by nlinarith
        have h5 : (n - 2) * M ≤ 2 * T := le_of_mul_le_mul_left h4 hn0
        nlinarith
      refine ⟨?_, ?_⟩
      · have : (n : ℝ) - ((k + 1 : ℕ) : ℝ) = d - 1 := by rw [hdd]; push_cast; ring
        rw [this]; push_cast; exact hgoal.le
      · have : 0 ≤ (T - (k + 1 : ℝ) * M / 2) * (d - 1) := mul_nonneg hTk (by linarith)
        linarith


/-! ## the whole job in exact arithmetic -/

/-- Number of samples of the job in bin `j`. -/
noncomputable def binCount (nbin n : Nat) (R : Nat → List (Row ℝ)) (j : ℕ) : ℕ :=
  (samples n R).countP (fun y => decide (binOf nbin y.theta = (j : ℤ)))

theorem sum_indicator (k : ℕ) : ∀ n : ℕ,
    ((List.range n).map (fun j : ℕ => if j = k then (1 : ℤ) else 0)).sum = if k < n then 1 else 0 := by
  intro n
  induction n with
  | zero => simp
  | succ n ih =>
    rw [List.range_succ, List.map_append, List.sum_append, ih]
    simp only [List.map_cons, List.map_nil, List.sum_cons, List.sum_nil]
    split_ifs <;> omega

theorem sum_binCount {nbin : Nat} (rows : List (Row ℝ))
    (h : ∀ y ∈ rows, 0 ≤ binOf nbin y.theta ∧ binOf nbin y.theta < nbin) :
    ((List.range nbin).map (fun j : ℕ => ((rows.countP (fun y => decide (binOf nbin y.theta = (j : ℤ))) : ℕ) : ℤ))).sum
      = rows.length := by
  induction rows with
  | nil => simp
  | cons r rows ih =>
    have h1 := ih (fun y hy => h y (by simp [hy]))
    obtain ⟨b0, b1⟩ := h r (by simp)
    have e : ∀ j : ℕ, (((r :: rows).countP (fun y => decide (binOf nbin y.theta = (j : ℤ))) : ℕ) : ℤ) =
        (((rows.countP (fun y => decide (binOf nbin y.theta = (j : ℤ))) : ℕ) : ℤ)) +
          if binOf nbin r.theta = (j : ℤ) then 1 else 0 := by
      intro j
      rw [List.countP_cons]
      by_cases hj : binOf nbin r.theta = (j : ℤ) <;> simp [hj]
    simp only [e]
    rw [List.sum_map_add, h1]
    have : ((List.range nbin).map (fun j : ℕ => if binOf nbin r.theta = (j : ℤ) then (1 : ℤ) else 0)).sum = 1 := by
      have : (fun j : ℕ => if binOf nbin r.theta = (j : ℤ) then (1 : ℤ) else 0) =
          (fun j : ℕ => if j = (binOf nbin r.theta).toNat then (1 : ℤ) else 0) := by
        funext j
        by_cases hj : j = (binOf nbin r.theta).toNat
        · rw [if_pos hj, if_pos (by omega)]
        · rw [if_neg hj, if_neg (by omega)]
      rw [this]
      rw [sum_indicator, if_pos (by omega)]
    rw [this]
    push_cast; rfl

theorem sumCols_count (nbin n : Nat) (R : Nat → List (Row ℝ)) :
    sumCols ((List.range n).map (fun r => (List.range nbin).map (fun j : ℕ =>
      (((R r).countP (fun y => decide (binOf nbin y.theta = (j : ℤ))) : ℕ) : ℤ)))) nbin =
    (List.range nbin).map (fun j : ℕ => (binCount nbin n R j : ℤ)) := by
  unfold sumCols
  apply List.map_congr_left
  intro j hj
  rw [List.mem_range] at hj
  rw [List.map_map]
  unfold binCount samples
  induction n with
  | zero => simp
  | succ n ih =>
    rw [List.range_succ, List.map_append, List.sum_append, ih, List.map_append, List.flatten_append, List.countP_append]
    push_cast
    simp [hj]

/-- The colatitudes of a job are legal and the job is balanced: no colatitude is exactly `pi/2`, and
no bin of the histogram holds more than `M` samples where `n (n-2) M ≤ 2 (number of samples)`. -/
structure Balanced (nbin n : Nat) (R : Nat → List (Row ℝ)) : Prop where
  nbin_pos : 0 < nbin
  legal : ∀ r < n, ∀ y ∈ R r, 0 ≤ y.theta ∧ y.theta ≤ Real.pi ∧ y.theta ≠ Real.pi / 2
  nonempty : ∃ r < n, R r ≠ []
  bins : ∃ M : ℕ, (∀ j < nbin, binCount nbin n R j ≤ M) ∧ n * (n - 2) * M ≤ 2 * (samples n R).length

/-- C43: in a balanced job the histogram and the table are computed without undefined behaviour. -/
theorem C43_distributed_partial {e : Env ℝ} {n : Nat} {R : Nat → List (Row ℝ)} (hB : Balanced e.nbin n R) :
    ∃ bounds, Distributed e n R bounds := by
  obtain ⟨M, hM, hbal⟩ := hB.bins
  obtain ⟨r0, hr0, hne⟩ := hB.nonempty
  have hsamp : ∀ y ∈ samples n R, 0 ≤ y.theta ∧ y.theta ≤ Real.pi ∧ y.theta ≠ Real.pi / 2 := by
    intro y hy
    unfold samples at hy
    obtain ⟨l, hl, hyl⟩ := List.mem_flatten.mp hy
    obtain ⟨r, hr, rfl⟩ := List.mem_map.mp hl
    exact hB.legal r (List.mem_range.mp hr) y hyl
  have hsum : ((List.range e.nbin).map (fun j : ℕ => (binCount e.nbin n R j : ℤ))).sum = (samples n R).length :=
    sum_binCount _ (fun y hy => by obtain ⟨a, b, c⟩ := hsamp y hy; exact binOf_range hB.nbin_pos a b c)
  have hlen : 0 < (samples n R).length := by
    unfold samples
    rw [List.length_pos_iff]
    intro h
    rw [List.flatten_eq_nil_iff] at h
    exact hne (h _ (List.mem_map.mpr ⟨r0, List.mem_range.mpr hr0, rfl⟩))
  have hn : 1 ≤ n := by omega
  obtain ⟨b, hb⟩ := C43_table_ok_partial (nbin := e.nbin) (n := n)
    (hits := (List.range e.nbin).map (fun j : ℕ => (binCount e.nbin n R j : ℤ))) (by simp) (M := M)
    (by
      intro x hx
      obtain ⟨j, hj, rfl⟩ := List.mem_map.mp hx
      have := hM j (List.mem_range.mp hj)
      omega)
    (by rw [hsum]; omega)
    (by
      rw [hsum]
      rcases Nat.lt_or_ge n 2 with h | h
      · have : (n : ℤ) = 1 := by omega
        rw [this]; nlinarith
      · have e1 : (n : ℤ) - 2 = ((n - 2 : ℕ) : ℤ) := by omega
        rw [e1]; exact_mod_cast hbal)
  rw [hsum] at hb
  refine ⟨b, ⟨?_, _, fun r hr => C43_histogram_partial hB.nbin_pos (R r) (hB.legal r hr), ?_⟩⟩
  · intro r hr y hy
    obtain ⟨a, b, _⟩ := hB.legal r hr y hy
    exact ⟨by rw [lt_false]; simpa using a, by rw [lt_false]; simpa using b⟩
  · rw [sumCols_count]; exact hb

/-- In exact arithmetic every job satisfies `Valid`, if the interpolation order does not exceed the
number of longitudes. -/
theorem valid_real {e : Env ℝ} (he : EnvOK e) (hord : e.cfg.order ≤ e.cfg.nphi) {n : Nat} (hn : 1 ≤ n)
    (R : Nat → List (Row ℝ)) : Valid e (fun _ => True) n R where
  ranks := hn
  laws := laws_real he
  tags := tagLaw_real _
  ang := fun _ _ _ _ => trivial
  defined := fun _ _ y _ => sampleSpec_real he hord y.phi y.theta y.psi

/-- End to end, exact arithmetic: a balanced job in which every rank has a sample returns on all ranks, and
every row comes back in place with its global number and the calibrated value of its own pointing. -/
theorem C01_convolve_real {e : Env ℝ} (he : EnvOK e) (hord : e.cfg.order ≤ e.cfg.nphi) {n : Nat} (hn : 1 ≤ n)
    {R : Nat → List (Row ℝ)} (hB : Balanced e.nbin n R) (hne : ∀ r < n, R r ≠ []) :
    ∃ v, Returns n (job e n R) v ∧ ∀ r < n, ∀ i (hi : i < (R r).length),
      ∃ s, sampleSpec e (R r)[i].phi (R r)[i].theta (R r)[i].psi = ok s ∧
        (v r)[i]? = some ⟨(R r)[i].phi, (R r)[i].theta, (R r)[i].psi, calibSpec e s, ((samples r R).length + i : ℕ)⟩ := by
  have hV := valid_real he hord hn R
  obtain ⟨b, hD⟩ := C43_distributed_partial hB
  obtain ⟨v, hv⟩ := C06_terminates_if_nonempty_partial hV hD hne
  refine ⟨v, hv, fun r hr i hi => ?_⟩
  obtain ⟨s, hs⟩ := sampleSpec_real he hord (R r)[i].phi (R r)[i].theta (R r)[i].psi
  refine ⟨s, hs, ?_⟩
  rw [returns_eq hV hv r hr]
  simp [resultRows, hi, val_of_spec hs, samples_length, total]

/-- C43 (finding), job level: fewer than `n - 1` non-empty bins: all ranks execute undefined behaviour. -/
theorem C43_job_undefined {e : Env ℝ} {n : Nat} (hn : 1 ≤ n) {R : Nat → List (Row ℝ)} (hnb : 0 < e.nbin)
    (hlegal : ∀ r < n, ∀ y ∈ R r, 0 ≤ y.theta ∧ y.theta ≤ Real.pi ∧ y.theta ≠ Real.pi / 2)
    (hfew : ((List.range e.nbin).countP (fun j => decide (binCount e.nbin n R j ≠ 0))) < n - 1) :
    ∀ r, HasUB n (job e n R) r := by
  obtain ⟨w, hw⟩ := C43_few_bins_undefined (F := ℝ) (nbin := e.nbin) hn
    (hits := (List.range e.nbin).map (fun j : ℕ => (binCount e.nbin n R j : ℤ))) (by simp) (samples n R).length (by
      rw [List.countP_map]
      refine lt_of_le_of_lt (le_of_eq ?_) hfew
      apply List.countP_congr
      intro j _
      simp)
  refine C43_table_undefined e hn R ?_ (fun r hr => C43_histogram_partial hnb (R r) (hlegal r hr)) (w := w) ?_
  · intro r hr y hy
    obtain ⟨a, b, _⟩ := hlegal r hr y hy
    exact ⟨by rw [lt_false]; simpa using a, by rw [lt_false]; simpa using b⟩
  · rw [sumCols_count]; exact hw

/-- C43 (finding): a sample exactly at the equator writes behind the histogram. -/
theorem C43_equator_undefined {e : Env ℝ} {n : Nat} (hn : 1 ≤ n) {R : Nat → List (Row ℝ)} (hnb : 0 < e.nbin)
    (hlegal : ∀ r < n, ∀ y ∈ R r, 0 ≤ y.theta ∧ y.theta ≤ Real.pi) {r : Nat} {y : Row ℝ} (hy : y ∈ R r)
    (heq : y.theta = Real.pi / 2) : HasUB n (job e n R) r := by
  refine C05_unbinned_undefined e hn R ?_ ⟨y, hy, ?_⟩
  · intro s hs z hz
    obtain ⟨a, b⟩ := hlegal s hs z hz
    exact ⟨by rw [lt_false]; simpa using a, by rw [lt_false]; simpa using b⟩
  · intro i hi
    right
    rw [heq, foldGt_of_le le_rfl] at hi
    simp only [div_def, trunc_def, Option.some.injEq] at hi
    have : (Real.pi / 2 / (wbin e.nbin : ℝ)) = e.nbin := by
      rw [wbin_real]
      have : (0:ℝ) < e.nbin := by exact_mod_cast hnb
      have := Real.pi_pos
      field_simp
    rw [this, truncR_nonneg (by positivity), Int.floor_natCast] at hi
    omega

end Verif.Tod
