import Verif.Tod.RoundSum

/-!
# C58: rounding errors of the weighted sum of one sample
-/

namespace Verif.Tod
open Verif Res Finset FP

variable {rnd : ℝ → ℝ} {u : ℝ} {N0 : ℕ}

/-- Two nested loops that add approximations to the same accumulator. -/
theorem near_sum2 (hr : RelErr rnd u) (m n : ℕ) {f : ℕ → FP rnd → Res (FP rnd)} {x A X : ℕ → ℕ → ℝ}
    (hf : ∀ i < m, ∀ (acc : FP rnd) (a A0 X0 : ℝ), Near acc.val a A0 X0 → ∃ r, f i acc = ok r ∧
      Near r.val (a + ∑ j ∈ range n, x i j) ((1 + u) ^ n * (A0 + ∑ j ∈ range n, A i j)) (X0 + ∑ j ∈ range n, X i j))
    (hA : ∀ i < m, ∀ j < n, 0 ≤ A i j) {a : FP rnd} (ha : a.val = 0) :
    ∃ r, forN m f a = ok r ∧ Near r.val (∑ i ∈ range m, ∑ j ∈ range n, x i j)
      ((1 + u) ^ (n * m) * ∑ i ∈ range m, ∑ j ∈ range n, A i j) (∑ i ∈ range m, ∑ j ∈ range n, X i j) := by
  induction m with
  | zero => exact ⟨a, rfl, by rw [ha]; exact ⟨by simp, by simp⟩⟩
  | succ m ih =>
    obtain ⟨r, h1, h2⟩ := ih (fun i hi => hf i (by omega)) (fun i hi => hA i (by omega))
    obtain ⟨r', h3, h4⟩ := hf m (by omega) r _ _ _ h2
    refine ⟨r', by rw [forN_succ, h1, ok_bind, h3], ?_⟩
    rw [sum_range_succ, sum_range_succ _ m, sum_range_succ (fun i => ∑ j ∈ range n, X i j) m]
    refine h4.mono ?_
    have hu := hr.nonneg
    have hs : 0 ≤ ∑ j ∈ range n, A m j := sum_nonneg (fun j hj => hA m (by omega) j (mem_range.mp hj))
    have h1u : (1 : ℝ) ≤ (1 + u) ^ (n * m) := one_le_pow₀ (by linarith)
    have h5 : (∑ j ∈ range n, A m j) ≤ (1 + u) ^ (n * m) * ∑ j ∈ range n, A m j := le_mul_of_one_le_left hs h1u
    have e : ∀ s : ℝ, (1 + u) ^ (n * (m + 1)) * s = (1 + u) ^ n * ((1 + u) ^ (n * m) * s) := by
      intro s; rw [Nat.mul_succ, pow_add]; ring
    rw [e]
    have hn : (0 : ℝ) ≤ (1 + u) ^ n := by positivity
    refine mul_le_mul_of_nonneg_left ?_ hn
    rw [mul_add]; linarith

/-- Magnitude of the numbers that enter one sample, with unrounded weights. -/
noncomputable def valAbs (c : Cfg) (ring : ℤ → List ℝ) (xt xp : ℝ) (it0 ip0 : ℤ) : ℝ :=
  ∑ k ∈ range c.npoints, ∑ j ∈ range c.npoints,
    2 * |wgt c.npoints xp j| * |wgt c.npoints xt k| * ringAbs c (ring (it0 + k)) (stencil c ip0 j).toNat

/-- The same with the bounds on the magnitude of the computed weights. -/
noncomputable def valHat (c : Cfg) (u ηt ηp : ℝ) (ring : ℤ → List ℝ) (xt xp : ℝ) (it0 ip0 : ℤ) : ℝ :=
  ∑ k ∈ range c.npoints, ∑ j ∈ range c.npoints,
    2 * wgtHat c.npoints u ηp xp j * wgtHat c.npoints u ηt xt k * ringAbs c (ring (it0 + k)) (stencil c ip0 j).toNat

/-- Factor collecting the roundings of the sums and products of one sample. -/
noncomputable def sumGrow (c : Cfg) (u psi : ℝ) : ℝ :=
  (1 + u) ^ (c.npoints * c.npoints + c.npsi + 5) * angGrow u psi ^ c.mbeam

theorem sumGrow_ge (c : Cfg) (h : 0 ≤ u) (psi : ℝ) : 1 ≤ sumGrow c u psi := by
  unfold sumGrow
  have h1 : (1 : ℝ) ≤ (1 + u) ^ (c.npoints * c.npoints + c.npsi + 5) := one_le_pow₀ (by linarith)
  have h2 : 1 ≤ angGrow u psi ^ c.mbeam := one_le_pow₀ (angGrow_ge h psi)
  nlinarith

theorem wgtHat_nonneg (N : ℕ) {η x : ℝ} (h : 0 ≤ u) (hη : 0 ≤ η) (m : ℕ) : 0 ≤ wgtHat N u η x m := by
  unfold wgtHat
  exact mul_nonneg (by positivity) (prod_nonneg (fun k _ => div_nonneg (add_nonneg (abs_nonneg _) hη) (abs_nonneg _)))

/-- The value computed for a sample from approximate grid positions. -/
theorem near_sampleValue (hr : Rounding rnd N0) (he : RelErr rnd u) (hu : u ≤ 1 / 4) (c : Cfg) (hord : c.order ≤ c.nphi)
    {ring : ℤ → List (FP rnd)} (hl : ∀ i, (ring i).length = c.bufsize) (row : Row (FP rnd)) (it0 : ℤ) {ip0 : ℤ} {fp : FP rnd}
    (hcell : phiCell c row.phi = ok (ip0, fp)) (h0 : 0 ≤ ip0) (h1 : ip0 < c.nphi) (h2 : 2 ≤ N0) {xt xp δt δp : ℝ}
    (ht : WSet rnd u N0 c.npoints
      (Arith.sub (Arith.mul (Arith.sub row.theta c.theta0) (c.invDtheta : FP rnd)) (Arith.ofInt it0) : FP rnd).val xt δt)
    (hp : WSet rnd u N0 c.npoints fp.val xp δp) :
    ∃ r, sampleValue c ring row it0 c.npoints = ok r ∧
      Near r.val (∑ k ∈ range c.npoints, ∑ j ∈ range c.npoints,
          wgt c.npoints xp j * (2 * wgt c.npoints xt k) * psiSum c ((ring (it0 + k)).map FP.val) row.psi.val (stencil c ip0 j).toNat)
        (sumGrow c u row.psi.val * valHat c u (factorErr c.npoints u δt) (factorErr c.npoints u δp) (fun i => (ring i).map FP.val) xt xp it0 ip0)
        (valAbs c (fun i => (ring i).map FP.val) xt xp it0 ip0) := by
  have hu0 := he.nonneg
  have hone : rnd 1 = 1 := by have := hr.int_exact 1 (by simp; omega); simpa using this
  have htwo : rnd ((2 : ℤ) : ℝ) = 2 := by have := hr.int_exact 2 (by simp; omega); simpa using this
  have hηt : 0 ≤ factorErr c.npoints u δt := ht.delta.trans ht.eta
  have hηp : 0 ≤ factorErr c.npoints u δp := hp.delta.trans hp.eta
  set G := angGrow u row.psi.val ^ c.mbeam with hG
  have hG1 : 1 ≤ G := one_le_pow₀ (angGrow_ge hu0 _)
  set xT : FP rnd := Arith.sub (Arith.mul (Arith.sub row.theta c.theta0) (c.invDtheta : FP rnd)) (Arith.ofInt it0) with hxT
  let wt : ℕ → ℝ := fun k => wgtHat c.npoints u (factorErr c.npoints u δt) xt k
  let wp : ℕ → ℝ := fun j => wgtHat c.npoints u (factorErr c.npoints u δp) xp j
  let P : ℕ → ℕ → ℝ := fun k j => ringAbs c ((ring (it0 + k)).map FP.val) (stencil c ip0 j).toNat
  have hP : ∀ k j, 0 ≤ P k j := fun k j => ringAbs_nonneg _ _ _
  have hwt : ∀ k, 0 ≤ wt k := fun k => wgtHat_nonneg _ hu0 hηt _
  have hwp : ∀ k, 0 ≤ wp k := fun k => wgtHat_nonneg _ hu0 hηp _
  obtain ⟨r, hr1, hr2⟩ := near_sum2 he c.npoints c.npoints
    (f := fun k acc => accum c row it0 (it0 + k) (ring (it0 + k)) acc)
    (x := fun k j => wgt c.npoints xp j * (2 * wgt c.npoints xt k) * psiSum c ((ring (it0 + k)).map FP.val) row.psi.val (stencil c ip0 j).toNat)
    (A := fun k j => (1 + u) ^ (c.npsi + 5) * G * (2 * wp j * wt k * P k j))
    (X := fun k j => 2 * |wgt c.npoints xp j| * |wgt c.npoints xt k| * P k j)
    (by
      intro k hk acc a A0 X0 hacc
      unfold accum
      simp only [weightNcm_eq, ok_bind, hcell]
      rw [show (it0 + (k : ℤ) - it0) = (k : ℤ) by ring, rd_nat (by simpa using hk)]
      simp only [ok_bind, List.getElem_map, List.getElem_range, ← hxT]
      -- the value of the Fourier sum for every longitude of the stencil
      have hdot : ∀ j < c.npoints, ∃ q, ringDot c (ring (it0 + k)) (angles c.npsi row.psi) (stencil c ip0 j) = ok q ∧
          Near q.val (psiSum c ((ring (it0 + k)).map FP.val) row.psi.val (stencil c ip0 j).toNat) ((1 + u) ^ (c.npsi + 2) * G * P k j) (P k j) := by
        intro j hj
        obtain ⟨s0, s1, _⟩ := (C14_stencil c hord h0 h1).1 j (by unfold Cfg.npoints at hj; omega)
        exact near_ringDot he hu hone c (hl _) row.psi s0 s1
      haveI : Inhabited (FP rnd) := ⟨⟨0⟩⟩
      choose! q hq1 hq2 using hdot
      refine near_sum he c.npoints (g := fun j => Arith.mul (Arith.mul (wgt c.npoints fp j) (Arith.mul (Arith.ofInt 2) (wgt c.npoints xT k))) (q j)) ?_ ?_ hacc
      · intro j hj acc
        rw [rd_nat (by simpa using hj)]
        simp only [ok_bind, List.getElem_map, List.getElem_range]
        have hst : (if ip0 + (j : ℤ) ≥ c.nphi then ip0 + (j : ℤ) - c.nphi else ip0 + (j : ℤ)) = stencil c ip0 j := rfl
        rw [hst, hq1 j hj]
        rfl
      · intro j hj
        simp only [mul_val, ofInt_val, htwo]
        have n1 := (((Near.exact (2 : ℝ)).mul (near_wgt ht hk)).round he)
        have n2 := ((near_wgt hp hj).mul n1).round he
        have n3 := (n2.mul (hq2 j hj)).round he
        rw [abs_of_pos (show (0 : ℝ) < 2 by norm_num)] at n3
        refine n3.mono2 (le_of_eq (by ring)) (le_of_eq ?_)
        simp only [wp, wt]
        ring)
    (fun k _ j _ => by
      have : 0 ≤ 2 * wp j * wt k * P k j := mul_nonneg (mul_nonneg (mul_nonneg (by norm_num) (hwp j)) (hwt k)) (hP k j)
      positivity)
    (a := Arith.ofInt 0) (by simp [he.zero])
  refine ⟨r, hr1, hr2.mono (le_of_eq ?_)⟩
  unfold sumGrow valHat
  simp only [← mul_sum]
  rw [show c.npoints * c.npoints + c.npsi + 5 = c.npoints * c.npoints + (c.npsi + 5) by omega, pow_add]
  ring

end Verif.Tod
