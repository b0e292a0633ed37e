import Verif.Num.GridPoint
import Verif.Num.LagrangeErr
import Verif.Num.WignerDeriv
import Verif.Tod.Outcome
import Mathlib.Tactic.IntervalCases

/-!
# Accuracy of the signal at arbitrary pointings (C61)
-/

namespace Verif.Num
open Verif Res Finset

/-! ## Specification -/

/-- The total convolution with every degree, order of the sky and order of the beam. -/
noncomputable def fullConv (pol : Bool) (s b : Exps) (lmax mbeam : ℕ) (theta phi psi : ℝ) : ℂ :=
  ∑ m' ∈ Icc (-(mbeam : ℤ)) mbeam, ∑ m ∈ Icc (-(lmax : ℤ)) lmax, ∑ l ∈ Icc (max m.natAbs m'.natAbs) lmax,
    convTerm pol s b l m' m theta phi psi

/-- Bound on the sum of the magnitudes of the interpolation weights, `N` points. -/
noncomputable def wLambda (N : ℕ) : ℝ := N * 2 ^ (N - 1) / N.choose ((N - 1) / 2 + 1)

/-- Relative error allowed for a term of degree `l` and sky order `m` when no degree is left out: interpolation in colatitude
(step `π/(lmax+1)`), in longitude (step `2π/(2lmax+1)`), and the displacement of polar angles. -/
noncomputable def termErr (lmax N l : ℕ) (m : ℤ) : ℝ :=
  (Real.pi * (l + 1 / 2) / (lmax + 1)) ^ N / N.choose ((N - 1) / 2 + 1) +
  wLambda N * ((2 * Real.pi * |(m : ℝ)| / (2 * lmax + 1)) ^ N / N.choose ((N - 1) / 2 + 1) + (l + 1 / 2) / 10 ^ 15)

/-! ## a ring sample -/

/-- First degrees on the ring at `θ`. -/
noncomputable def ringFirst (ovf : Res ℤ) (lmax : ℕ) (eps θ : ℝ) (m' m : ℤ) : ℕ := kfirst ovf lmax [θ] eps m'.natAbs m.natAbs 0

theorem ringFirst_ok {ovf : Res ℤ} {v : ℤ} (hovf : ovf = ok v) {lmax mbeam : ℕ} (h0 : 0 < lmax) (hL : lmax < 46341)
    (hn : mbeam ≤ lmax) (eps θ : ℝ) (south : Bool) : FirstDegOK (ringFirst ovf lmax eps θ) lmax mbeam eps (angleOf south θ) := by
  have K := kfirst_ok hovf (npsi := mbeam + 1) h0 hL (by omega) [θ] eps
  have hlat : 0 < [θ].length := by simp
  refine ⟨fun m' m h1 h2 => ?_, fun m' m h1 h2 => ?_, fun m' m h1 h2 l g1 g2 g3 g4 => ?_⟩
  · exact K.lo m m'.natAbs 0 h2 (by have := abs_natAbs_le h1; omega) hlat
  · exact K.hi m m'.natAbs 0 h2 (by have := abs_natAbs_le h1; omega) hlat
  · have hd := K.dropped m m'.natAbs 0 h2 (by have := abs_natAbs_le h1; omega) hlat l g1 g2 g4 g3
    have hget : [θ].getD 0 0 = θ := rfl
    rw [hget] at hd
    set x := genAngle θ
    have hsq : ∀ n : ℕ, |(-1 : ℝ) ^ n| = 1 := by intro n; rw [abs_pow]; simp
    have a' : |m'| ≤ (l : ℤ) := natAbs_abs_le g1
    have a : |m| ≤ (l : ℤ) := natAbs_abs_le g2
    have an : |-m| ≤ (l : ℤ) := by rw [abs_neg]; exact a
    have hx : |wignerD l m' m x| ≤ tau lmax eps ∨ |wignerD l m' (-m) x| ≤ tau lmax eps := by
      rcases (show m' = m'.natAbs ∨ m' = -(m'.natAbs : ℤ) by omega) with e | e
      · rw [e]; exact hd
      · have e2 : (m'.natAbs : ℤ) = -m' := by omega
        rw [e2] at hd
        have p1 := wignerD_neg_neg l (m' := m') (m := -m) a' an x
        have p2 := wignerD_neg_neg l (m' := m') (m := m) a' a x
        rw [neg_neg] at p1
        rw [p1, p2, abs_mul, abs_mul, hsq, hsq, one_mul, one_mul] at hd
        exact hd.symm
    unfold angleOf
    split
    · rw [wignerD_pi_sub l a' a, wignerD_pi_sub l a' an, abs_mul, abs_mul, hsq, one_mul, one_mul, neg_neg]
      exact hx.symm
    · exact hx

theorem ring_sum {ovf : Res ℤ} {v : ℤ} (hovf : ovf = ok v) {pol : Bool} {s b : Exps} {c : Tod.Cfg}
    (h : KernelOK pol s b c.lmax c.npsi) (hs : RealField pol c.lmax s) (hb : RealField pol c.lmax b)
    {o : Orders} (ho : o.OK c.lmax c.npsi) {fft : List ℂ → List ℂ} (hf : IsBackward fft c.nphi) (eps : ℝ)
    (south : Bool) (θ : ℝ) (p : ℤ) (psi : ℝ) :
    ((2 * Tod.psiSum c (ringOf ovf o fft pol s b c eps south θ) psi (p % (c.nphi : ℤ)).toNat : ℝ) : ℂ) =
      totalConv pol s b c.lmax c.mbeam (ringFirst ovf c.lmax eps θ) (angleOf south θ) (Tod.nodePhi c p) psi := by
  have hspec := (ringOf_spec hovf h ho hf eps south θ).2
  have hmb : c.mbeam ≤ c.lmax := by have := h.npsi_le; unfold Tod.Cfg.npsi at this; omega
  have hF := ringFirst_ok hovf (mbeam := c.mbeam) h.pos h.lt hmb eps θ south
  have hn : (0 : ℤ) < c.nphi := by unfold Tod.Cfg.nphi; positivity
  have hp : (p % (c.nphi : ℤ)).toNat < c.nphi := by
    have := Int.emod_lt_of_pos p hn
    have := Int.emod_nonneg p hn.ne'
    omega
  unfold totalConv
  set F := ringFirst ovf c.lmax eps θ with hFd
  set ϑ := angleOf south θ
  set φ := Tod.nodePhi c p with hφ
  rw [sum_conj_pairs (fun m' => ∑ m ∈ Icc (-(c.lmax : ℤ)) c.lmax, ∑ l ∈ Ico (F m' m) (c.lmax + 1),
      convTerm pol s b l m' m ϑ φ psi) c.mbeam ?_]
  · congr 1
    unfold Tod.psiSum
    rw [Finset.mul_sum]
    apply Finset.sum_congr rfl
    intro k hk
    rw [mem_range] at hk
    set q := (p % (c.nphi : ℤ)).toNat with hq
    rw [(hspec q k hp hk).1, (hspec q k hp hk).2]
    unfold ringVal
    rw [psi_pair]
    congr 2
    rw [Finset.mul_sum]
    apply Finset.sum_congr rfl
    intro m _
    rw [Finset.sum_mul, Finset.mul_sum]
    have hFF : F k m = kfirst ovf c.lmax [θ] eps k m.natAbs 0 := rfl
    rw [hFF]
    apply Finset.sum_congr rfl
    intro l _
    unfold convTerm kterm
    rw [exp_nodePhi, Int.natAbs_natCast, Int.cast_natCast]
    have hsq : ((-1 : ℂ) ^ k) * (-1) ^ k = 1 := by rw [← mul_pow]; norm_num
    rw [pow_add]
    linear_combination ((-1 : ℂ) ^ m.natAbs * (wignerD l k m ϑ : ℂ) * skyBeam pol s b l m k *
      Complex.exp (Complex.I * m * φ) * Complex.exp (Complex.I * k * psi)) * hsq
  · intro k hk
    rw [← sum_neg_orders, map_sum]
    apply Finset.sum_congr rfl
    intro m hm
    rw [mem_Icc] at hm
    rw [map_sum]
    have hm' : |m| ≤ (c.lmax : ℤ) := abs_le.mpr hm
    have hFF : F (-k) (-m) = F k m := by
      rw [hFd]; unfold ringFirst; rw [Int.natAbs_neg, Int.natAbs_neg]
    rw [hFF]
    apply Finset.sum_congr rfl
    intro l hl
    rw [mem_Ico] at hl
    obtain ⟨l1, l2⟩ := hF.lo k m hk hm'
    exact convTerm_neg hs hb (by omega) (natAbs_abs_le (by omega)) (natAbs_abs_le (by omega)) ϑ φ psi

theorem totalConv_ite {F : ℤ → ℤ → ℕ} {pol : Bool} {s b : Exps} {lmax mbeam : ℕ} {theta phi psi : ℝ}
    (hF : ∀ m' m : ℤ, |m'| ≤ mbeam → |m| ≤ lmax → m'.natAbs ≤ F m' m ∧ m.natAbs ≤ F m' m) :
    totalConv pol s b lmax mbeam F theta phi psi =
      ∑ m' ∈ Icc (-(mbeam : ℤ)) mbeam, ∑ m ∈ Icc (-(lmax : ℤ)) lmax, ∑ l ∈ Icc (max m.natAbs m'.natAbs) lmax,
        if F m' m ≤ l then convTerm pol s b l m' m theta phi psi else 0 := by
  unfold totalConv
  apply Finset.sum_congr rfl
  intro m' hm'
  apply Finset.sum_congr rfl
  intro m hm
  obtain ⟨f1, f2⟩ := hF m' m (abs_le.mpr (mem_Icc.mp hm')) (abs_le.mpr (mem_Icc.mp hm))
  rw [← Finset.sum_filter]
  apply Finset.sum_congr _ (fun _ _ => rfl)
  ext l
  simp only [mem_Ico, mem_filter, mem_Icc]
  omega

/-! ## interpolation of one term -/

theorem theta_interp {lmax l N q : ℕ} {m' m : ℤ} (h' : |m'| ≤ l) (h : |m| ≤ l) (hq : q < N) {x : ℝ} (h0 : (q : ℝ) ≤ x)
    (h1 : x < q + 1) (a w : ℝ) (hw : |w| = Real.pi / (lmax + 1)) :
    |wignerD l m' m (a + x * w) - ∑ k ∈ range N, Tod.wgt N x k * wignerD l m' m (a + k * w)| ≤
      (Real.pi * (l + 1 / 2) / (lmax + 1)) ^ N / N.choose (q + 1) := by
  have T : Tower (fun n t => w ^ n * dTower l m' n m (a + t * w)) := by
    intro n t
    have hin : HasDerivAt (fun y : ℝ => a + y * w) w t := by
      simpa using ((hasDerivAt_id t).mul_const w).const_add a
    have hc := (dTower_deriv l h' n h (a + t * w)).comp t hin
    refine (hc.const_mul (w ^ n)).congr_deriv ?_
    show _ = w ^ (n + 1) * dTower l m' (n + 1) m (a + t * w)
    rw [pow_succ]; ring
  have hb := lagrange_bound T hq h0 h1 (M := (Real.pi * (l + 1 / 2) / (lmax + 1)) ^ N) (fun t => by
    rw [abs_mul, abs_pow, hw, show Real.pi * ((l : ℝ) + 1 / 2) / (lmax + 1) = Real.pi / (lmax + 1) * (l + 1 / 2) by ring, mul_pow]
    exact mul_le_mul_of_nonneg_left (dTower_bound l h' N h _) (by positivity))
  simpa [dTower] using hb

theorem phi_interp {lmax N q : ℕ} (m : ℤ) (hq : q < N) {x : ℝ} (h0 : (q : ℝ) ≤ x)
    (h1 : x < q + 1) (a : ℝ) :
    ‖Complex.exp (Complex.I * m * ((a + x * (2 * Real.pi / (2 * lmax + 1)) : ℝ) : ℂ)) -
      ∑ k ∈ range N, ((Tod.wgt N x k : ℝ) : ℂ) * Complex.exp (Complex.I * m * ((a + k * (2 * Real.pi / (2 * lmax + 1)) : ℝ) : ℂ))‖ ≤
      (2 * Real.pi * |(m : ℝ)| / (2 * lmax + 1)) ^ N / N.choose (q + 1) := by
  set w : ℝ := 2 * Real.pi / (2 * lmax + 1) with hw
  have hw0 : 0 ≤ w := by positivity
  have T : ∀ n t, HasDerivAt (fun y : ℝ => (Complex.I * m * w) ^ n * Complex.exp (Complex.I * m * ((a + y * w : ℝ) : ℂ)))
      ((Complex.I * m * w) ^ (n + 1) * Complex.exp (Complex.I * m * ((a + t * w : ℝ) : ℂ))) t := by
    intro n t
    have hin : HasDerivAt (fun y : ℝ => ((a + y * w : ℝ) : ℂ)) (w : ℂ) t := by
      have : HasDerivAt (fun y : ℝ => a + y * w) w t := by
        simpa using ((hasDerivAt_id t).mul_const w).const_add a
      exact this.ofReal_comp
    have hc := ((hin.const_mul (Complex.I * m)).cexp).const_mul ((Complex.I * m * w) ^ n)
    refine hc.congr_deriv ?_
    rw [pow_succ]; ring
  have hnorm : ‖Complex.I * m * w‖ = 2 * Real.pi * |(m : ℝ)| / (2 * lmax + 1) := by
    rw [norm_mul, norm_mul, Complex.norm_I, one_mul, Complex.norm_real, Real.norm_of_nonneg hw0, Complex.norm_intCast, hw]
    ring
  have hb := lagrange_bound_complex T hq h0 h1 (M := (2 * Real.pi * |(m : ℝ)| / (2 * lmax + 1)) ^ N) (fun t => by
    rw [norm_mul, norm_pow, hnorm]
    have : ‖Complex.exp (Complex.I * m * ((a + t * w : ℝ) : ℂ))‖ = 1 := by
      rw [show Complex.I * m * ((a + t * w : ℝ) : ℂ) = ((m * (a + t * w) : ℝ) : ℂ) * Complex.I by push_cast; ring]
      exact Complex.norm_exp_ofReal_mul_I _
    rw [this, mul_one])
  simpa using hb

theorem norm_exp_order (m : ℤ) (t : ℝ) : ‖Complex.exp (Complex.I * m * (t : ℂ))‖ = 1 := by
  rw [show Complex.I * m * (t : ℂ) = ((m * t : ℝ) : ℂ) * Complex.I by push_cast; ring]
  exact Complex.norm_exp_ofReal_mul_I _

theorem term_interp {lmax l N q q' : ℕ} {m' m : ℤ} (h' : |m'| ≤ l) (h : |m| ≤ l) (hq : q < N) (hq' : q' < N) {x f : ℝ}
    (x0 : (q : ℝ) ≤ x) (x1 : x < q + 1) (f0 : (q' : ℝ) ≤ f) (f1 : f < q' + 1) (a w α : ℝ) (hw : |w| = Real.pi / (lmax + 1))
    {D : ℕ → ℝ} {η : ℝ} (hη : ∀ k < N, |D k - wignerD l m' m (a + k * w)| ≤ η) (hD : ∀ k < N, |D k| ≤ 1) :
    ‖(∑ k ∈ range N, ((Tod.wgt N x k : ℝ) : ℂ) * (D k : ℂ)) *
        (∑ j ∈ range N, ((Tod.wgt N f j : ℝ) : ℂ) * Complex.exp (Complex.I * m * ((α + j * (2 * Real.pi / (2 * lmax + 1)) : ℝ) : ℂ))) -
      (wignerD l m' m (a + x * w) : ℂ) * Complex.exp (Complex.I * m * ((α + f * (2 * Real.pi / (2 * lmax + 1)) : ℝ) : ℂ))‖ ≤
      (Real.pi * (l + 1 / 2) / (lmax + 1)) ^ N / N.choose (q + 1) + N * 2 ^ (N - 1) / N.choose (q + 1) *
        ((2 * Real.pi * |(m : ℝ)| / (2 * lmax + 1)) ^ N / N.choose (q' + 1) + η) := by
  have hT := theta_interp (lmax := lmax) h' h hq x0 x1 a w hw
  have hP := phi_interp (lmax := lmax) m hq' f0 f1 α
  have hL := lebesgue_bound hq x0 x1.le
  set Λ : ℝ := N * 2 ^ (N - 1) / N.choose (q + 1) with hΛ
  set Eθ : ℝ := (Real.pi * (l + 1 / 2) / (lmax + 1)) ^ N / N.choose (q + 1)
  set Eφ : ℝ := (2 * Real.pi * |(m : ℝ)| / (2 * lmax + 1)) ^ N / N.choose (q' + 1)
  set B := ∑ j ∈ range N, ((Tod.wgt N f j : ℝ) : ℂ) * Complex.exp (Complex.I * m * ((α + j * (2 * Real.pi / (2 * lmax + 1)) : ℝ) : ℂ))
  set e := Complex.exp (Complex.I * m * ((α + f * (2 * Real.pi / (2 * lmax + 1)) : ℝ) : ℂ)) with he
  set d := wignerD l m' m (a + x * w)
  have hη0 : 0 ≤ η := (abs_nonneg _).trans (hη q hq)
  have hA : (∑ k ∈ range N, ((Tod.wgt N x k : ℝ) : ℂ) * (D k : ℂ)) = ((∑ k ∈ range N, Tod.wgt N x k * D k : ℝ) : ℂ) := by
    push_cast; rfl
  rw [hA]
  set A : ℝ := ∑ k ∈ range N, Tod.wgt N x k * D k with hAd
  have hA1 : |A| ≤ Λ := by
    refine le_trans (abs_sum_le_sum_abs _ _) (le_trans (sum_le_sum fun k hk => ?_) hL)
    rw [abs_mul]
    exact mul_le_of_le_one_right (abs_nonneg _) (hD k (mem_range.mp hk))
  have hA2 : |A - d| ≤ Eθ + Λ * η := by
    have e1 : A - d = (∑ k ∈ range N, Tod.wgt N x k * (D k - wignerD l m' m (a + k * w))) -
        (d - ∑ k ∈ range N, Tod.wgt N x k * wignerD l m' m (a + k * w)) := by
      rw [hAd, show ∑ k ∈ range N, Tod.wgt N x k * (D k - wignerD l m' m (a + k * w)) =
        ∑ k ∈ range N, Tod.wgt N x k * D k - ∑ k ∈ range N, Tod.wgt N x k * wignerD l m' m (a + k * w) by
          rw [← sum_sub_distrib]; exact sum_congr rfl (fun _ _ => by ring)]
      ring
    have e2 : |∑ k ∈ range N, Tod.wgt N x k * (D k - wignerD l m' m (a + k * w))| ≤ Λ * η := by
      refine le_trans (abs_sum_le_sum_abs _ _) ?_
      refine le_trans (sum_le_sum (g := fun k => |Tod.wgt N x k| * η) fun k hk => ?_) ?_
      · rw [abs_mul]
        exact mul_le_mul_of_nonneg_left (hη k (mem_range.mp hk)) (abs_nonneg _)
      · rw [← sum_mul]; exact mul_le_mul_of_nonneg_right hL hη0
    rw [e1]
    have := abs_sub (∑ k ∈ range N, Tod.wgt N x k * (D k - wignerD l m' m (a + k * w)))
      (d - ∑ k ∈ range N, Tod.wgt N x k * wignerD l m' m (a + k * w))
    linarith
  have hBe : ‖B - e‖ ≤ Eφ := by rw [norm_sub_rev]; exact hP
  have hE0 : 0 ≤ Eφ := (norm_nonneg _).trans hBe
  have he1 : ‖e‖ = 1 := norm_exp_order m _
  have hfin : (A : ℂ) * B - (d : ℂ) * e = (A : ℂ) * (B - e) + ((A - d : ℝ) : ℂ) * e := by push_cast; ring
  rw [hfin]
  refine (norm_add_le _ _).trans ?_
  rw [norm_mul, norm_mul, he1, mul_one, Complex.norm_real, Complex.norm_real, Real.norm_eq_abs, Real.norm_eq_abs]
  have := mul_le_mul hA1 hBe (norm_nonneg _) ((abs_nonneg _).trans hA1)
  linarith

/-! ## the sample -/

/-- The value of a sample as a weighted sum over the rings and longitudes of its stencil, which depend only on the grid and the
pointing. -/
theorem sample_shared (c : Tod.Cfg) (hord : c.order ≤ c.nphi)
    {theta : ℝ} (t0 : 0 ≤ theta) (t1 : theta ≤ Real.pi) (phi psi : ℝ) :
    ∃ (it ip : ℤ) (x f : ℝ), 0 ≤ it ∧ (c.order / 2 : ℕ) ≤ x ∧ x < (c.order / 2 : ℕ) + 1 ∧
      (c.order / 2 : ℕ) ≤ f ∧ f < (c.order / 2 : ℕ) + 1 ∧
      Tod.foldGt theta = Tod.ringTheta c it + x * (c.dtheta : ℝ) ∧
      (∃ k : ℤ, phi = Tod.nodePhi c ip + f * (2 * Real.pi / (2 * c.lmax + 1)) + 2 * Real.pi * k) ∧
      ∀ e : Tod.Env ℝ, e.cfg = c → (∀ h i, (e.ring h i).length = c.bufsize) → Tod.sampleSpec e phi theta psi = ok (∑ k ∈ range c.npoints, ∑ j ∈ range c.npoints,
        Tod.wgt c.npoints x k * (Tod.wgt c.npoints f j * (2 * Tod.psiSum c
          (e.ring (decide (Real.pi / 2 ≤ theta)) (it + k).toNat) psi ((ip + j) % (c.nphi : ℤ)).toNat))) := by
  have hpi := Real.pi_pos
  have hb0 := Tod.foldGt_nonneg t0 t1
  have hb1 := Tod.foldGt_le theta
  have hff : Tod.foldGt (Tod.foldGt theta) = Tod.foldGt theta := Tod.foldGt_of_le hb1
  obtain ⟨it, hit, i0, i1, ie, _⟩ := Tod.C13_window c hb0 (by linarith : Tod.foldGt theta ≤ Real.pi)
  rw [hff] at ie
  obtain ⟨ip, f, hcell, p0, p1, f0, f1, k, hk⟩ := Tod.C14_cell c (by omega) phi
  set y := (Tod.foldGt theta - (c.theta0 : ℝ)) * c.invDtheta with hy
  refine ⟨it, ip, y - it, f, i0, ?_, ?_, f0, f1, ?_, ⟨k, ?_⟩, ?_⟩
  · have := Int.floor_le y
    have h2 : ((⌊y⌋ : ℤ) : ℝ) = it + (c.order / 2 : ℕ) := by
      rw [show ⌊y⌋ = it + ((c.order / 2 : ℕ) : ℤ) by omega, Int.cast_add, Int.cast_natCast]
    linarith
  · have := Int.lt_floor_add_one y
    have h2 : ((⌊y⌋ : ℤ) : ℝ) = it + (c.order / 2 : ℕ) := by
      rw [show ⌊y⌋ = it + ((c.order / 2 : ℕ) : ℤ) by omega, Int.cast_add, Int.cast_natCast]
    linarith
  · unfold Tod.ringTheta
    have hone : (c.invDtheta : ℝ) * c.dtheta = 1 := by
      rw [Tod.invDtheta_real, Tod.dtheta_real]
      have h : (c.lmax : ℝ) + 1 ≠ 0 := by positivity
      have := Real.pi_ne_zero
      field_simp
    have : (y - it) * (c.dtheta : ℝ) = (Tod.foldGt theta - (c.theta0 : ℝ)) - it * c.dtheta := by
      rw [sub_mul, hy, mul_assoc, hone, mul_one]
    rw [this]; ring
  · rw [hk, Tod.dphi_real]
    unfold Tod.nodePhi Tod.Cfg.nphi
    push_cast; ring
  · intro e hc hlen
    unfold Tod.sampleSpec
    rw [hc]
    simp only [hit, ok_bind]
    rw [Tod.sampleValue_real c hord (ring := fun i => e.ring (!(Tod.Arith.lt theta (Tod.Arith.halfpi : ℝ))) i.toNat) (fun i => hlen _ _)
      ⟨phi, Tod.foldGt theta, psi, Tod.Arith.ofInt 0, Tod.Arith.ofInt 0⟩ it hcell p0 p1]
    congr 1
    unfold Tod.interpValue
    have hs : (!(Tod.Arith.lt theta (Tod.Arith.halfpi : ℝ))) = decide (Real.pi / 2 ≤ theta) := by
      rw [Bool.eq_iff_iff]
      simp [Tod.RealArith.lt_false]
    rw [hs]
    apply sum_congr rfl
    intro k hk
    apply sum_congr rfl
    intro j hj
    obtain ⟨s0, s1, s2⟩ := (Tod.C14_stencil c hord p0 p1).1 j (by rw [mem_range] at hj; unfold Tod.Cfg.npoints at hj; omega)
    have hst : Tod.stencil c ip j = (ip + j) % (c.nphi : ℤ) := by
      rw [← Int.emod_eq_of_lt s0 s1]; exact s2
    rw [hst]
    ring

/-- The same for one environment. -/
theorem sample_sum {e : Tod.Env ℝ} (hlen : ∀ h i, (e.ring h i).length = e.cfg.bufsize) (hord : e.cfg.order ≤ e.cfg.nphi)
    {theta : ℝ} (t0 : 0 ≤ theta) (t1 : theta ≤ Real.pi) (phi psi : ℝ) :
    ∃ (it ip : ℤ) (x f : ℝ), 0 ≤ it ∧ (e.cfg.order / 2 : ℕ) ≤ x ∧ x < (e.cfg.order / 2 : ℕ) + 1 ∧
      (e.cfg.order / 2 : ℕ) ≤ f ∧ f < (e.cfg.order / 2 : ℕ) + 1 ∧
      Tod.foldGt theta = Tod.ringTheta e.cfg it + x * (e.cfg.dtheta : ℝ) ∧
      (∃ k : ℤ, phi = Tod.nodePhi e.cfg ip + f * (2 * Real.pi / (2 * e.cfg.lmax + 1)) + 2 * Real.pi * k) ∧
      Tod.sampleSpec e phi theta psi = ok (∑ k ∈ range e.cfg.npoints, ∑ j ∈ range e.cfg.npoints,
        Tod.wgt e.cfg.npoints x k * (Tod.wgt e.cfg.npoints f j * (2 * Tod.psiSum e.cfg
          (e.ring (decide (Real.pi / 2 ≤ theta)) (it + k).toNat) psi ((ip + j) % (e.cfg.nphi : ℤ)).toNat))) := by
  obtain ⟨it, ip, x, f, h1, h2, h3, h4, h5, h6, h7, h8⟩ := sample_shared e.cfg hord t0 t1 phi psi
  exact ⟨it, ip, x, f, h1, h2, h3, h4, h5, h6, h7, h8 e rfl hlen⟩

theorem sum_swap5 {κ ι : Type} (K : Finset κ) (J : Finset ι) (M' M : Finset ℤ) (S : ℤ → ℤ → Finset ℕ) (g : κ → ι → ℤ → ℤ → ℕ → ℂ) :
    ∑ k ∈ K, ∑ j ∈ J, ∑ m' ∈ M', ∑ m ∈ M, ∑ l ∈ S m' m, g k j m' m l =
      ∑ m' ∈ M', ∑ m ∈ M, ∑ l ∈ S m' m, ∑ k ∈ K, ∑ j ∈ J, g k j m' m l := by
  rw [← sum_product', sum_comm]
  apply sum_congr rfl
  intro m' _
  rw [sum_comm]
  apply sum_congr rfl
  intro m _
  rw [sum_comm]
  apply sum_congr rfl
  intro l _
  rw [sum_product' K J (fun k j => g k j m' m l)]

/-- Bound on the sum of the magnitudes of the weights of `N` points in the cell `[q, q+1]`. -/
noncomputable def cellLambda (N q : ℕ) : ℝ := N * 2 ^ (N - 1) / N.choose (q + 1)

/-- Relative error of a term for a position in the cells `q` (colatitude) and `q'` (longitude) of the stencil. -/
noncomputable def cellErr (lmax N q q' l : ℕ) (m : ℤ) : ℝ :=
  (Real.pi * (l + 1 / 2) / (lmax + 1)) ^ N / N.choose (q + 1) +
  cellLambda N q * ((2 * Real.pi * |(m : ℝ)| / (2 * lmax + 1)) ^ N / N.choose (q' + 1) + (l + 1 / 2) / 10 ^ 15)

/-- Interpolation on any stencil: `δ` bounds the elements of the degrees left out on the rings of the stencil. -/
theorem stencil_core {ovf : Res ℤ} {v : ℤ} (hovf : ovf = ok v) {pol : Bool} {s b : Exps} {c : Tod.Cfg}
    (h : KernelOK pol s b c.lmax c.npsi) (hs : RealField pol c.lmax s) (hb : RealField pol c.lmax b)
    {o : Orders} (ho : o.OK c.lmax c.npsi) {fft : List ℂ → List ℂ}
    (hf : IsBackward fft c.nphi) {eps : ℝ} {south : Bool} {ring : ℕ → List ℝ}
    (hring : ∀ i, ring i = ringOf ovf o fft pol s b c eps south (Tod.ringTheta c i))
    {it ip : ℤ} (i0 : 0 ≤ it) {q q' : ℕ} (hq : q < c.npoints) (hq' : q' < c.npoints) {x f : ℝ}
    (x0 : (q : ℝ) ≤ x) (x1 : x < q + 1) (f0 : (q' : ℝ) ≤ f) (f1 : f < q' + 1) {theta phi : ℝ} (psi : ℝ)
    (hta : (if south then Real.pi - Tod.ringTheta c it else Tod.ringTheta c it) +
      x * (if south then -(c.dtheta : ℝ) else c.dtheta) = theta)
    {kk : ℤ} (hphi : phi = Tod.nodePhi c ip + f * (2 * Real.pi / (2 * c.lmax + 1)) + 2 * Real.pi * kk) :
    (∀ k < c.npoints, ∃ t : ℤ, |angleOf south (Tod.ringTheta c (it + k)) - (theta - 2 * Real.pi * t)| ≤
        Real.pi / (c.lmax + 1) * (c.order + 1) + 1 / 10 ^ 15) ∧
      ∀ δ : ℤ → ℤ → ℕ → ℝ, (∀ m' m l, 0 ≤ δ m' m l) →
        (∀ k < c.npoints, ∀ (m' m : ℤ) (l : ℕ), |m'| ≤ c.mbeam → |m| ≤ c.lmax → l ≤ c.lmax → |m'| ≤ l → |m| ≤ l →
          l < ringFirst ovf c.lmax eps (Tod.ringTheta c (it + k)) m' m →
          |wignerD l m' m (angleOf south (Tod.ringTheta c (it + k)))| ≤ δ m' m l) →
        ‖((∑ k ∈ range c.npoints, ∑ j ∈ range c.npoints, Tod.wgt c.npoints x k * (Tod.wgt c.npoints f j * (2 * Tod.psiSum c
            (ring (it + k).toNat) psi ((ip + j) % (c.nphi : ℤ)).toNat)) : ℝ) : ℂ) - fullConv pol s b c.lmax c.mbeam theta phi psi‖ ≤
          ∑ m' ∈ Icc (-(c.mbeam : ℤ)) c.mbeam, ∑ m ∈ Icc (-(c.lmax : ℤ)) c.lmax,
            ∑ l ∈ Icc (max m.natAbs m'.natAbs) c.lmax,
              ‖skyBeam pol s b l m m'‖ * (cellErr c.lmax c.npoints q q' l m + cellLambda c.npoints q * δ m' m l) := by
  set N := c.npoints with hN
  have hNo : N = c.order + 1 := by rw [hN]; unfold Tod.Cfg.npoints; rfl
  have hdt : (c.dtheta : ℝ) = -(Real.pi / (c.lmax + 1)) := Tod.dtheta_real c
  have hstep : 0 < Real.pi / ((c.lmax : ℝ) + 1) := by have := Real.pi_pos; positivity
  -- angles of the nodes
  set a : ℝ := if south then Real.pi - Tod.ringTheta c it else Tod.ringTheta c it with ha
  set w : ℝ := if south then -(c.dtheta : ℝ) else c.dtheta with hwd
  have hw : |w| = Real.pi / (c.lmax + 1) := by
    rw [hwd]; split
    · rw [abs_neg, hdt, abs_neg, abs_of_pos hstep]
    · rw [hdt, abs_neg, abs_of_pos hstep]
  have hex : ∀ k : ℕ, ∃ t : ℤ, |angleOf south (Tod.ringTheta c (it + k)) - (a + k * w - 2 * Real.pi * t)| ≤ 1 / 10 ^ 15 := by
    intro k
    obtain ⟨t, ht⟩ := genAngle_close (Tod.ringTheta c (it + k))
    have hrt : Tod.ringTheta c (it + k) = Tod.ringTheta c it + k * (c.dtheta : ℝ) := by
      unfold Tod.ringTheta; push_cast; ring
    rw [hrt] at ht
    rw [ha, hwd, hrt]; unfold angleOf
    split
    · refine ⟨-t, ?_⟩
      rw [← abs_neg]
      refine le_of_eq_of_le ?_ ht
      congr 1; push_cast; ring
    · exact ⟨t, ht⟩
  refine ⟨?_, ?_⟩
  · intro k hk
    obtain ⟨t, ht⟩ := hex k
    refine ⟨t, ?_⟩
    have hqo : (q : ℝ) ≤ c.order := by exact_mod_cast (by omega : q ≤ c.order)
    have hx0 : 0 ≤ x := le_trans (by positivity) x0
    have hk1 : (k : ℝ) ≤ c.order := by exact_mod_cast (by omega : k ≤ c.order)
    have hk0 : (0 : ℝ) ≤ k := by positivity
    have h1 : |(k - x) * w| ≤ Real.pi / (c.lmax + 1) * (c.order + 1) := by
      rw [abs_mul, hw, mul_comm]
      apply mul_le_mul_of_nonneg_left _ hstep.le
      rw [abs_le]; constructor <;> linarith
    rw [show angleOf south (Tod.ringTheta c (it + k)) - (theta - 2 * Real.pi * t) =
      (k - x) * w + (angleOf south (Tod.ringTheta c (it + k)) - (a + k * w - 2 * Real.pi * t)) by rw [← hta]; ring]
    exact (abs_add_le _ _).trans (add_le_add h1 ht)
  intro δ hδ0 hδ
  have hmb : c.mbeam ≤ c.lmax := by have := h.npsi_le; unfold Tod.Cfg.npsi at this; omega
  -- each node as a sum of terms
  let F : ℕ → ℤ → ℤ → ℕ := fun k => ringFirst ovf c.lmax eps (Tod.ringTheta c (it + k))
  let ϑ : ℕ → ℝ := fun k => angleOf south (Tod.ringTheta c (it + k))
  let φ : ℕ → ℝ := fun j => Tod.nodePhi c (ip + j)
  have hFok : ∀ k, FirstDegOK (F k) c.lmax c.mbeam eps (ϑ k) := fun k => ringFirst_ok hovf h.pos h.lt hmb eps _ _
  have hnode : ∀ k j : ℕ, ((2 * Tod.psiSum c (ring (it + k).toNat) psi ((ip + j) % (c.nphi : ℤ)).toNat : ℝ) : ℂ) =
      ∑ m' ∈ Icc (-(c.mbeam : ℤ)) c.mbeam, ∑ m ∈ Icc (-(c.lmax : ℤ)) c.lmax, ∑ l ∈ Icc (max m.natAbs m'.natAbs) c.lmax,
        if F k m' m ≤ l then convTerm pol s b l m' m (ϑ k) (φ j) psi else 0 := by
    intro k j
    rw [hring, show (((it + k).toNat : ℕ) : ℤ) = it + k by omega, ring_sum hovf h hs hb ho hf, totalConv_ite (fun m' m a b => (hFok k).lo m' m a b)]
  -- expansion of the value
  have hx : ((∑ k ∈ range N, ∑ j ∈ range N, Tod.wgt N x k * (Tod.wgt N f j * (2 * Tod.psiSum c
      (ring (it + k).toNat) psi ((ip + j) % (c.nphi : ℤ)).toNat)) : ℝ) : ℂ) =
      ∑ m' ∈ Icc (-(c.mbeam : ℤ)) c.mbeam, ∑ m ∈ Icc (-(c.lmax : ℤ)) c.lmax, ∑ l ∈ Icc (max m.natAbs m'.natAbs) c.lmax,
        ∑ k ∈ range N, ∑ j ∈ range N, ((Tod.wgt N x k : ℝ) : ℂ) * (((Tod.wgt N f j : ℝ) : ℂ) *
          (if F k m' m ≤ l then convTerm pol s b l m' m (ϑ k) (φ j) psi else 0)) := by
    rw [← sum_swap5]
    rw [Complex.ofReal_sum]
    apply sum_congr rfl
    intro k _
    rw [Complex.ofReal_sum]
    apply sum_congr rfl
    intro j _
    rw [Complex.ofReal_mul, Complex.ofReal_mul (Tod.wgt N f j), hnode k j, mul_sum, mul_sum]
    apply sum_congr rfl
    intro m' _
    rw [mul_sum, mul_sum]
    apply sum_congr rfl
    intro m _
    rw [mul_sum, mul_sum]
  rw [hx]
  unfold fullConv
  rw [← sum_sub_distrib]
  refine (norm_sum_le _ _).trans (sum_le_sum fun m' hm' => ?_)
  rw [← sum_sub_distrib]
  refine (norm_sum_le _ _).trans (sum_le_sum fun m hm => ?_)
  rw [← sum_sub_distrib]
  refine (norm_sum_le _ _).trans (sum_le_sum fun l hl => ?_)
  -- one term
  have am' : |m'| ≤ (c.mbeam : ℤ) := abs_le.mpr (mem_Icc.mp hm')
  have am : |m| ≤ (c.lmax : ℤ) := abs_le.mpr (mem_Icc.mp hm)
  rw [mem_Icc] at hl
  have al' : |m'| ≤ (l : ℤ) := natAbs_abs_le (le_trans (le_max_right _ _) hl.1)
  have al : |m| ≤ (l : ℤ) := natAbs_abs_le (le_trans (le_max_left _ _) hl.1)
  set A : ℂ := (-1) ^ m.natAbs * skyBeam pol s b l m m' * Complex.exp (Complex.I * m' * psi) with hA
  have hAn : ‖A‖ = ‖skyBeam pol s b l m m'‖ := by
    rw [hA, norm_mul, norm_mul, norm_pow, norm_neg, norm_one, one_pow, one_mul, norm_exp_order, mul_one]
  have hdist : ∀ k : ℕ, |wignerD l m' m (ϑ k) - wignerD l m' m (a + k * w)| ≤ ((l : ℝ) + 1 / 2) / 10 ^ 15 := by
    intro k
    obtain ⟨t, ht⟩ := hex k
    have e1 : wignerD l m' m (a + k * w) = wignerD l m' m (a + k * w - 2 * Real.pi * t) := by
      rw [← wignerD_turns l al' al (a + k * w - 2 * Real.pi * t) t]; congr 1; ring
    rw [e1]
    refine (wignerD_lipschitz l al' al _ _).trans ?_
    have : ((l : ℝ) + 1 / 2) / 10 ^ 15 = ((l : ℝ) + 1 / 2) * (1 / 10 ^ 15) := by ring
    rw [this]
    exact mul_le_mul_of_nonneg_left ht (by positivity)
  let D : ℕ → ℝ := fun k => if F k m' m ≤ l then wignerD l m' m (ϑ k) else 0
  have hD1 : ∀ k < N, |D k| ≤ 1 := by
    intro k _
    simp only [D]; split
    · exact abs_wignerD_le_one l al' al _
    · simp
  have hD2 : ∀ k < N, |D k - wignerD l m' m (a + k * w)| ≤ ((l : ℝ) + 1 / 2) / 10 ^ 15 + δ m' m l := by
    intro k hk
    simp only [D]
    split
    · have := hδ0 m' m l; linarith [hdist k]
    next hlt =>
      have h1 := hδ k hk m' m l am' am hl.2 al' al (by simpa [F] using hlt)
      have h2 : |(0:ℝ) - wignerD l m' m (a + k * w)| ≤ |wignerD l m' m (ϑ k) - wignerD l m' m (a + k * w)| + |wignerD l m' m (ϑ k)| := by
        rw [show (0:ℝ) - wignerD l m' m (a + k * w) =
          (wignerD l m' m (ϑ k) - wignerD l m' m (a + k * w)) - wignerD l m' m (ϑ k) by ring]
        exact abs_sub _ _
      have h3 : |wignerD l m' m (ϑ k)| ≤ δ m' m l := h1
      linarith [hdist k]
  have hmain := term_interp (lmax := c.lmax) al' al hq hq' x0 x1 f0 f1 a w (Tod.nodePhi c ip) hw hD2 hD1
  have htp : Complex.exp (Complex.I * m * ((Tod.nodePhi c ip + f * (2 * Real.pi / (2 * c.lmax + 1)) : ℝ) : ℂ)) =
      Complex.exp (Complex.I * m * phi) := by
    rw [hphi]
    have : Complex.I * m * ((Tod.nodePhi c ip + f * (2 * Real.pi / (2 * c.lmax + 1)) + 2 * Real.pi * kk : ℝ) : ℂ) =
      Complex.I * m * ((Tod.nodePhi c ip + f * (2 * Real.pi / (2 * c.lmax + 1)) : ℝ) : ℂ) + ((m * kk : ℤ) : ℂ) * (2 * Real.pi * Complex.I) := by
      push_cast; ring
    rw [this, Complex.exp_add, Complex.exp_int_mul_two_pi_mul_I, mul_one]
  rw [hta, htp] at hmain
  have hsum : ∑ k ∈ range N, ∑ j ∈ range N, ((Tod.wgt N x k : ℝ) : ℂ) * (((Tod.wgt N f j : ℝ) : ℂ) *
          (if F k m' m ≤ l then convTerm pol s b l m' m (ϑ k) (φ j) psi else 0)) =
      A * ((∑ k ∈ range N, ((Tod.wgt N x k : ℝ) : ℂ) * (D k : ℂ)) *
        (∑ j ∈ range N, ((Tod.wgt N f j : ℝ) : ℂ) * Complex.exp (Complex.I * m * ((Tod.nodePhi c ip + j * (2 * Real.pi / (2 * c.lmax + 1)) : ℝ) : ℂ)))) := by
    rw [sum_mul_sum, mul_sum]
    apply sum_congr rfl
    intro k _
    rw [mul_sum]
    apply sum_congr rfl
    intro j _
    have hφj : φ j = Tod.nodePhi c ip + j * (2 * Real.pi / (2 * c.lmax + 1)) := by
      simp only [φ]; unfold Tod.nodePhi; push_cast; ring
    rw [← hφj]
    simp only [D]
    by_cases hk : F k m' m ≤ l
    · rw [if_pos hk, if_pos hk]
      unfold convTerm
      rw [hA]; ring
    · rw [if_neg hk, if_neg hk]; simp
  have htarget : convTerm pol s b l m' m theta phi psi = A * ((wignerD l m' m theta : ℂ) * Complex.exp (Complex.I * m * phi)) := by
    unfold convTerm; rw [hA]; ring
  rw [hsum, htarget, ← mul_sub, norm_mul, hAn]
  apply mul_le_mul_of_nonneg_left _ (norm_nonneg _)
  refine hmain.trans (le_of_eq ?_)
  unfold cellErr cellLambda
  ring

/-- General form: `δ` bounds the elements of the degrees left out on the rings of the stencil. -/
theorem accuracy_core {ovf : Res ℤ} {v : ℤ} (hovf : ovf = ok v) {pol : Bool} {s b : Exps} {e : Tod.Env ℝ}
    (h : KernelOK pol s b e.cfg.lmax e.cfg.npsi) (hs : RealField pol e.cfg.lmax s) (hb : RealField pol e.cfg.lmax b)
    {o : Orders} (ho : o.OK e.cfg.lmax e.cfg.npsi) {fft : List ℂ → List ℂ}
    (hf : IsBackward fft e.cfg.nphi) {eps : ℝ} (hr : RingsFrom e ovf o fft pol s b eps) (hord : e.cfg.order ≤ e.cfg.nphi)
    {theta : ℝ} (t0 : 0 ≤ theta) (t1 : theta ≤ Real.pi) (phi psi : ℝ) :
    ∃ (x : ℝ) (it : ℤ), 0 ≤ it ∧
      (∀ k < e.cfg.npoints, ∃ t : ℤ, |angleOf (decide (Real.pi / 2 ≤ theta)) (Tod.ringTheta e.cfg (it + k)) - (theta - 2 * Real.pi * t)| ≤
        Real.pi / (e.cfg.lmax + 1) * (e.cfg.order + 1) + 1 / 10 ^ 15) ∧
      Tod.sampleSpec e phi theta psi = ok x ∧
      ∀ δ : ℤ → ℤ → ℕ → ℝ, (∀ m' m l, 0 ≤ δ m' m l) →
        (∀ k < e.cfg.npoints, ∀ (m' m : ℤ) (l : ℕ), |m'| ≤ e.cfg.mbeam → |m| ≤ e.cfg.lmax → l ≤ e.cfg.lmax → |m'| ≤ l → |m| ≤ l →
          l < ringFirst ovf e.cfg.lmax eps (Tod.ringTheta e.cfg (it + k)) m' m →
          |wignerD l m' m (angleOf (decide (Real.pi / 2 ≤ theta)) (Tod.ringTheta e.cfg (it + k)))| ≤ δ m' m l) →
        ‖(x : ℂ) - fullConv pol s b e.cfg.lmax e.cfg.mbeam theta phi psi‖ ≤
          ∑ m' ∈ Icc (-(e.cfg.mbeam : ℤ)) e.cfg.mbeam, ∑ m ∈ Icc (-(e.cfg.lmax : ℤ)) e.cfg.lmax,
            ∑ l ∈ Icc (max m.natAbs m'.natAbs) e.cfg.lmax,
              ‖skyBeam pol s b l m m'‖ * (termErr e.cfg.lmax e.cfg.npoints l m + wLambda e.cfg.npoints * δ m' m l) := by
  set c := e.cfg with hc
  set south := decide (Real.pi / 2 ≤ theta) with hsouth
  have hspec := fun south i => ringOf_spec hovf h ho hf eps south (Tod.ringTheta c i)
  have hlen : ∀ hh i, (e.ring hh i).length = c.bufsize := by
    intro hh i; rw [hr hh i]; exact (hspec hh i).1
  obtain ⟨it, ip, x, f, i0, x0, x1, f0, f1, hth, ⟨kk, hphi⟩, hval⟩ := sample_sum hlen hord t0 t1 phi psi
  rw [← hc] at x0 x1 f0 f1 hth hphi hval
  -- the target angles
  have hta : (if south then Real.pi - Tod.ringTheta c it else Tod.ringTheta c it) +
      x * (if south then -(c.dtheta : ℝ) else c.dtheta) = theta := by
    by_cases hS : Real.pi / 2 ≤ theta
    · have hSt : south = true := by rw [hsouth]; exact decide_eq_true hS
      rw [if_pos hSt, if_pos hSt]
      have : Tod.foldGt theta = Real.pi - theta := by
        rw [Tod.foldGt_real]
        split
        · rfl
        · have : theta = Real.pi / 2 := by linarith
          rw [this]; ring
      linarith
    · have hSf : ¬ south = true := by rw [hsouth]; simpa using hS
      rw [if_neg hSf, if_neg hSf]
      rw [Tod.foldGt_of_le (by linarith)] at hth
      linarith
  have hq : c.order / 2 < c.npoints := by unfold Tod.Cfg.npoints; omega
  have hqN : (c.npoints - 1) / 2 = c.order / 2 := by unfold Tod.Cfg.npoints; omega
  obtain ⟨hang, hacc⟩ := stencil_core hovf h hs hb ho hf (ring := e.ring south) (fun i => hr south i) i0 hq hq x0 x1 f0 f1 psi hta hphi
  refine ⟨_, it, i0, hang, hval, fun δ hδ0 hδ => ?_⟩
  refine (hacc δ hδ0 hδ).trans (le_of_eq ?_)
  unfold termErr wLambda cellErr cellLambda
  rw [hqN]

/-! ## Property theorems -/

theorem wLambda_nonneg (N : ℕ) : 0 ≤ wLambda N := by unfold wLambda; positivity

theorem tau_nonneg (lmax : ℕ) (eps : ℝ) : 0 ≤ tau lmax eps := by
  unfold tau; exact le_trans (by positivity) (le_max_right _ _)

/-- C61: for every pointing with `0 ≤ theta ≤ π` the interpolated value differs from the total convolution at that pointing by
at most the sum over all terms of the magnitude of the term times `termErr`, plus, for the terms flagged by `W`, `wLambda` times
their magnitude.  A term is flagged only if one of the elements `d^l_{m',±m}` is negligible at an angle of the stencil,
that is within `(order+1)π/(lmax+1)` (plus `1e-15`) of `theta`. -/
theorem C61_accuracy {ovf : Res ℤ} {v : ℤ} (hovf : ovf = ok v) {pol : Bool} {s b : Exps} {e : Tod.Env ℝ}
    (h : KernelOK pol s b e.cfg.lmax e.cfg.npsi) (hs : RealField pol e.cfg.lmax s) (hb : RealField pol e.cfg.lmax b)
    {o : Orders} (ho : o.OK e.cfg.lmax e.cfg.npsi) {fft : List ℂ → List ℂ}
    (hf : IsBackward fft e.cfg.nphi) {eps : ℝ} (hr : RingsFrom e ovf o fft pol s b eps) (hord : e.cfg.order ≤ e.cfg.nphi)
    {theta : ℝ} (t0 : 0 ≤ theta) (t1 : theta ≤ Real.pi) (phi psi : ℝ) :
    ∃ (x : ℝ) (W : ℤ → ℤ → ℕ → Bool), Tod.sampleSpec e phi theta psi = ok x ∧
      (∀ m' m l, W m' m l = true → ∃ (ϑ : ℝ) (t : ℤ),
        |ϑ - (theta - 2 * Real.pi * t)| ≤ Real.pi / (e.cfg.lmax + 1) * (e.cfg.order + 1) + 1 / 10 ^ 15 ∧
        (|wignerD l m' m ϑ| ≤ tau e.cfg.lmax eps ∨ |wignerD l m' (-m) ϑ| ≤ tau e.cfg.lmax eps)) ∧
      ‖(x : ℂ) - fullConv pol s b e.cfg.lmax e.cfg.mbeam theta phi psi‖ ≤
        ∑ m' ∈ Icc (-(e.cfg.mbeam : ℤ)) e.cfg.mbeam, ∑ m ∈ Icc (-(e.cfg.lmax : ℤ)) e.cfg.lmax,
          ∑ l ∈ Icc (max m.natAbs m'.natAbs) e.cfg.lmax, ‖skyBeam pol s b l m m'‖ *
            (termErr e.cfg.lmax e.cfg.npoints l m + if W m' m l then wLambda e.cfg.npoints else 0) := by
  classical
  obtain ⟨x, it, i0, hang, hx, hacc⟩ := accuracy_core hovf h hs hb ho hf hr hord t0 t1 phi psi
  have hmb : e.cfg.mbeam ≤ e.cfg.lmax := by have := h.npsi_le; unfold Tod.Cfg.npsi at this; omega
  let W : ℤ → ℤ → ℕ → Bool := fun m' m l => decide (|m'| ≤ e.cfg.mbeam ∧ |m| ≤ e.cfg.lmax ∧ l ≤ e.cfg.lmax ∧ |m'| ≤ l ∧ |m| ≤ l ∧
    ∃ k < e.cfg.npoints, l < ringFirst ovf e.cfg.lmax eps (Tod.ringTheta e.cfg (it + (k : ℕ))) m' m)
  refine ⟨x, W, hx, ?_, ?_⟩
  · intro m' m l hW
    obtain ⟨a1, a2, a3, a4, a5, k, hk, hlt⟩ := of_decide_eq_true hW
    obtain ⟨t, ht⟩ := hang k hk
    refine ⟨_, t, ht, ?_⟩
    exact (ringFirst_ok hovf h.pos h.lt hmb eps _ _).dropped m' m a1 a2 l (abs_natAbs_le a4) (abs_natAbs_le a5) a3 hlt
  · have := hacc (fun m' m l => if W m' m l then 1 else 0) (fun m' m l => by split <;> norm_num) (by
      intro k hk m' m l a1 a2 a3 a4 a5 hlt
      have hW : W m' m l = true := decide_eq_true ⟨a1, a2, a3, a4, a5, k, hk, hlt⟩
      simp only [hW, if_true]
      exact abs_wignerD_le_one l a4 a5 _)
    refine this.trans (le_of_eq ?_)
    apply sum_congr rfl
    intro m' _
    apply sum_congr rfl
    intro m _
    apply sum_congr rfl
    intro l _
    congr 2
    split <;> ring

/-- C61, axisymmetric beams: every term contributes at most its magnitude times `termErr + wLambda·tau`. -/
theorem C61_axisymmetric {ovf : Res ℤ} {v : ℤ} (hovf : ovf = ok v) {pol : Bool} {s b : Exps} {e : Tod.Env ℝ}
    (h : KernelOK pol s b e.cfg.lmax e.cfg.npsi) (hs : RealField pol e.cfg.lmax s) (hb : RealField pol e.cfg.lmax b)
    {o : Orders} (ho : o.OK e.cfg.lmax e.cfg.npsi) {fft : List ℂ → List ℂ}
    (hf : IsBackward fft e.cfg.nphi) {eps : ℝ} (hr : RingsFrom e ovf o fft pol s b eps) (hord : e.cfg.order ≤ e.cfg.nphi)
    (hm0 : e.cfg.mbeam = 0) {theta : ℝ} (t0 : 0 ≤ theta) (t1 : theta ≤ Real.pi) (phi psi : ℝ) :
    ∃ x : ℝ, Tod.sampleSpec e phi theta psi = ok x ∧
      ‖(x : ℂ) - fullConv pol s b e.cfg.lmax 0 theta phi psi‖ ≤
        ∑ m ∈ Icc (-(e.cfg.lmax : ℤ)) e.cfg.lmax, ∑ l ∈ Icc m.natAbs e.cfg.lmax, ‖skyBeam pol s b l m 0‖ *
            (termErr e.cfg.lmax e.cfg.npoints l m + wLambda e.cfg.npoints * tau e.cfg.lmax eps) := by
  obtain ⟨x, it, i0, hang, hx, hacc⟩ := accuracy_core hovf h hs hb ho hf hr hord t0 t1 phi psi
  have hmb : e.cfg.mbeam ≤ e.cfg.lmax := by omega
  refine ⟨x, hx, ?_⟩
  have := hacc (fun _ _ _ => tau e.cfg.lmax eps) (fun _ _ _ => tau_nonneg _ _) (by
    intro k hk m' m l a1 a2 a3 a4 a5 hlt
    have hm' : m' = 0 := by rw [hm0] at a1; simpa using a1
    subst hm'
    rcases (ringFirst_ok hovf h.pos h.lt hmb eps _ (decide (Real.pi / 2 ≤ theta))).dropped 0 m a1 a2 l (abs_natAbs_le a4) (abs_natAbs_le a5) a3 hlt with d | d
    · exact d
    · have hn := wignerD_neg_neg l (m' := 0) (m := m) a4 a5 (angleOf (decide (Real.pi / 2 ≤ theta)) (Tod.ringTheta e.cfg (it + k)))
      rw [neg_zero] at hn
      rw [hn, abs_mul, abs_pow, abs_neg, abs_one, one_pow, one_mul] at d
      exact d)
  rw [hm0] at this
  simpa using this

theorem termErr_mono {lmax N l L : ℕ} (hl : l ≤ L) {m : ℤ} (hm : |m| ≤ l) :
    termErr lmax N l m ≤ (1 + wLambda N) * ((Real.pi * (L + 1 / 2) / (lmax + 1 / 2)) ^ N / N.choose ((N - 1) / 2 + 1)) +
      wLambda N * ((L + 1 / 2) / 10 ^ 15) := by
  have hpi := Real.pi_pos
  have hlL : (l : ℝ) ≤ L := by exact_mod_cast hl
  have hmr : |(m : ℝ)| ≤ l := by
    have : ((|m| : ℤ) : ℝ) ≤ ((l : ℤ) : ℝ) := by exact_mod_cast hm
    rwa [Int.cast_abs, Int.cast_natCast] at this
  have hw := wLambda_nonneg N
  have e1 : Real.pi * ((l : ℝ) + 1 / 2) / (lmax + 1) ≤ Real.pi * (L + 1 / 2) / (lmax + 1 / 2) := by
    apply div_le_div₀ (by positivity) _ (by positivity) (by linarith)
    exact mul_le_mul_of_nonneg_left (by linarith) hpi.le
  have e2 : 2 * Real.pi * |(m : ℝ)| / (2 * lmax + 1) ≤ Real.pi * (L + 1 / 2) / (lmax + 1 / 2) := by
    rw [show 2 * Real.pi * |(m : ℝ)| / (2 * lmax + 1) = Real.pi * |(m : ℝ)| / (lmax + 1 / 2) by
      rw [div_eq_div_iff (by positivity) (by positivity)]; ring]
    exact div_le_div_of_nonneg_right (mul_le_mul_of_nonneg_left (by linarith) hpi.le) (by positivity)
  have p1 := pow_le_pow_left₀ (by positivity) e1 N
  have p2 := pow_le_pow_left₀ (by positivity) e2 N
  have q1 := div_le_div_of_nonneg_right p1 (show (0:ℝ) ≤ N.choose ((N - 1) / 2 + 1) by positivity)
  have q2 := div_le_div_of_nonneg_right p2 (show (0:ℝ) ≤ N.choose ((N - 1) / 2 + 1) by positivity)
  have r : ((l : ℝ) + 1 / 2) / 10 ^ 15 ≤ (L + 1 / 2) / 10 ^ 15 := div_le_div_of_nonneg_right (by linarith) (by positivity)
  unfold termErr
  have := mul_le_mul_of_nonneg_left (add_le_add q2 r) hw
  linarith

/-- C61, oversampling: if the product of the expansions has no degree above `L`, the error for an axisymmetric beam is at most
the sum of the magnitudes of the terms times
`(1+Λ)(π(L+1/2)/(lmax+1/2))^N/C(N, ·) + Λ((L+1/2)·1e-15 + tau)`: it falls with the power `N = order+1` of the oversampling. -/
theorem C61_oversampling {ovf : Res ℤ} {v : ℤ} (hovf : ovf = ok v) {pol : Bool} {s b : Exps} {e : Tod.Env ℝ}
    (h : KernelOK pol s b e.cfg.lmax e.cfg.npsi) (hs : RealField pol e.cfg.lmax s) (hb : RealField pol e.cfg.lmax b)
    {o : Orders} (ho : o.OK e.cfg.lmax e.cfg.npsi) {fft : List ℂ → List ℂ}
    (hf : IsBackward fft e.cfg.nphi) {eps : ℝ} (hr : RingsFrom e ovf o fft pol s b eps) (hord : e.cfg.order ≤ e.cfg.nphi)
    (hm0 : e.cfg.mbeam = 0) {L : ℕ} (hL : ∀ (l : ℕ) (m : ℤ), L < l → l ≤ e.cfg.lmax → |m| ≤ l → skyBeam pol s b l m 0 = 0)
    {theta : ℝ} (t0 : 0 ≤ theta) (t1 : theta ≤ Real.pi) (phi psi : ℝ) :
    ∃ x : ℝ, Tod.sampleSpec e phi theta psi = ok x ∧
      ‖(x : ℂ) - fullConv pol s b e.cfg.lmax 0 theta phi psi‖ ≤
        (∑ m ∈ Icc (-(e.cfg.lmax : ℤ)) e.cfg.lmax, ∑ l ∈ Icc m.natAbs e.cfg.lmax, ‖skyBeam pol s b l m 0‖) *
          ((1 + wLambda (e.cfg.order + 1)) * ((Real.pi * (L + 1 / 2) / (e.cfg.lmax + 1 / 2)) ^ (e.cfg.order + 1) /
              (e.cfg.order + 1).choose (e.cfg.order / 2 + 1)) +
            wLambda (e.cfg.order + 1) * ((L + 1 / 2) / 10 ^ 15 + tau e.cfg.lmax eps)) := by
  obtain ⟨x, hx, hb'⟩ := C61_axisymmetric hovf h hs hb ho hf hr hord hm0 t0 t1 phi psi
  refine ⟨x, hx, hb'.trans ?_⟩
  rw [sum_mul]
  refine sum_le_sum fun m _ => ?_
  rw [sum_mul]
  refine sum_le_sum fun l hl => ?_
  rw [mem_Icc] at hl
  by_cases hlL : l ≤ L
  · apply mul_le_mul_of_nonneg_left _ (norm_nonneg _)
    have := termErr_mono (lmax := e.cfg.lmax) (N := e.cfg.npoints) hlL (natAbs_abs_le hl.1 : |m| ≤ (l : ℤ))
    have hN : e.cfg.npoints = e.cfg.order + 1 := rfl
    rw [hN] at this ⊢
    simp only [Nat.add_sub_cancel] at this
    linarith
  · rw [hL l m (by omega) hl.2 (natAbs_abs_le hl.1), norm_zero, zero_mul, zero_mul]

/-- C61 for the distributed program: in every job that returns, on every rank and for every sample, the signal is the total
convolution at the pointing of the sample (times the calibration factor) within the bound of `C61_accuracy`. -/
theorem C61_convolve {ovf : Res ℤ} {v : ℤ} (hovf : ovf = ok v) {pol : Bool} {s b : Exps} {e : Tod.Env ℝ} (he : Tod.EnvOK e)
    (hnb : 0 < e.nbin) (h : KernelOK pol s b e.cfg.lmax e.cfg.npsi) (hs : RealField pol e.cfg.lmax s) (hb : RealField pol e.cfg.lmax b)
    {o : Orders} (ho : o.OK e.cfg.lmax e.cfg.npsi) {fft : List ℂ → List ℂ}
    (hf : IsBackward fft e.cfg.nphi) {eps : ℝ} (hr : RingsFrom e ovf o fft pol s b eps) (hord : e.cfg.order ≤ e.cfg.nphi)
    {n : ℕ} (hn : 1 ≤ n) {R out : ℕ → List (Tod.Row ℝ)} (hret : Spmd.Returns n (Tod.job e n R) out)
    {r : ℕ} (hrn : r < n) {i : ℕ} (hi : i < (R r).length) :
    ∃ (x : ℝ) (y : Tod.Row ℝ) (W : ℤ → ℤ → ℕ → Bool), (out r)[i]? = some y ∧
      y.sig = (if e.calibrate && !e.normalized then x * (2 / (1 + e.eps)) else x) ∧
      (∀ m' m l, W m' m l = true → ∃ (ϑ : ℝ) (t : ℤ),
        |ϑ - ((R r)[i].theta - 2 * Real.pi * t)| ≤ Real.pi / (e.cfg.lmax + 1) * (e.cfg.order + 1) + 1 / 10 ^ 15 ∧
        (|wignerD l m' m ϑ| ≤ tau e.cfg.lmax eps ∨ |wignerD l m' (-m) ϑ| ≤ tau e.cfg.lmax eps)) ∧
      ‖(x : ℂ) - fullConv pol s b e.cfg.lmax e.cfg.mbeam (R r)[i].theta (R r)[i].phi (R r)[i].psi‖ ≤
        ∑ m' ∈ Icc (-(e.cfg.mbeam : ℤ)) e.cfg.mbeam, ∑ m ∈ Icc (-(e.cfg.lmax : ℤ)) e.cfg.lmax,
          ∑ l ∈ Icc (max m.natAbs m'.natAbs) e.cfg.lmax, ‖skyBeam pol s b l m m'‖ *
            (termErr e.cfg.lmax e.cfg.npoints l m + if W m' m l then wLambda e.cfg.npoints else 0) := by
  have hlegal := ((Tod.C59_outcome (R := R) he hord hn hnb).2.2.2.mp ⟨out, hret⟩).1 r hrn (R r)[i] (List.getElem_mem hi)
  obtain ⟨x, W, hx, hW, hbound⟩ := C61_accuracy hovf h hs hb ho hf hr hord hlegal.1 hlegal.2.1 (R r)[i].phi (R r)[i].psi
  have hV := Tod.valid_real he hord hn R
  refine ⟨x, ⟨(R r)[i].phi, (R r)[i].theta, (R r)[i].psi, Tod.calibSpec e x, ((Tod.samples r R).length + i : ℕ)⟩, W, ?_, ?_, hW, hbound⟩
  · rw [Tod.returns_eq hV hret r hrn]
    simp [Tod.resultRows, hi, Tod.val_of_spec hx, Tod.samples_length, Tod.total]
  · show Tod.calibSpec e x = _
    unfold Tod.calibSpec
    simp only [Tod.RealArith.mul_def, Tod.RealArith.div_def, Tod.RealArith.ofInt_def, Tod.RealArith.add_def]
    push_cast
    rfl

/-! ## Witnesses -/

/-- The hypotheses of `C61_accuracy` hold together at a pointing that is not on the grid: polarised expansions, `lmax = 2`,
order 1, two threads. -/
example : ∃ (x : ℝ) (W : ℤ → ℤ → ℕ → Bool), Tod.sampleSpec wEnv 2 1 3 = ok x ∧
      (∀ m' m l, W m' m l = true → ∃ (ϑ : ℝ) (t : ℤ),
        |ϑ - (1 - 2 * Real.pi * t)| ≤ Real.pi / ((2 : ℕ) + 1) * ((1 : ℕ) + 1) + 1 / 10 ^ 15 ∧
        (|wignerD l m' m ϑ| ≤ tau 2 (1 / 10 ^ 30) ∨ |wignerD l m' (-m) ϑ| ≤ tau 2 (1 / 10 ^ 30))) ∧
      ‖(x : ℂ) - fullConv true wExps wExps 2 2 1 2 3‖ ≤
        ∑ m' ∈ Icc (-(2 : ℕ) : ℤ) (2 : ℕ), ∑ m ∈ Icc (-(2 : ℕ) : ℤ) (2 : ℕ),
          ∑ l ∈ Icc (max m.natAbs m'.natAbs) 2, ‖skyBeam true wExps wExps l m m'‖ *
            (termErr 2 2 l m + if W m' m l then wLambda 2 else 0) :=
  C61_accuracy (e := wEnv) (ovf := ok 0) rfl wKernelOK wReal wReal wOrders_ok (fft := dft 5) (dft_backward 5)
    (eps := 1 / 10 ^ 30) (fun _ _ => rfl) (by decide) (by norm_num) (by linarith [Real.pi_gt_three]) 2 3

/-- Monopole and dipole only, stored up to degree 2. -/
noncomputable def xAlm : Harm.Alm ℂ := ⟨2, 2, [1, 1, 0, 2 - Complex.I, 0, 0]⟩

noncomputable def xExps : Exps := ⟨xAlm, xAlm, xAlm⟩

theorem xKernelOK : KernelOK false xExps xExps 2 1 := by
  have hwf : xAlm.WF := by refine ⟨?_, ?_, ?_⟩ <;> simp [xAlm, Harm.numAlms]
  have hf : Fits 2 1 xAlm xAlm := ⟨hwf, by simp [xAlm], by simp [xAlm], hwf, by simp [xAlm], by simp [xAlm]⟩
  exact ⟨by norm_num, by norm_num, by norm_num, hf, fun _ => hf, fun _ => hf⟩

theorem xOrders_ok : Orders.OK { wOrders with B1 := [0], B2 := [0] } 2 1 :=
  ⟨wOrders_ok.sc, wOrders_ok.A1, by decide, wOrders_ok.C1, wOrders_ok.A2, by decide, wOrders_ok.C2⟩

theorem xReal : RealField false 2 xExps := by
  have h : ∀ l ≤ 2, (coef xAlm l 0).im = 0 := by
    intro l hl
    interval_cases l <;> simp [coef, Harm.Alm.get, xAlm, Harm.index, Harm.indexL0, rd]
  exact ⟨h, fun _ l hl => ⟨h l hl, h l hl⟩⟩

/-- An axisymmetric beam. -/
noncomputable def xEnv : Tod.Env ℝ :=
  { Tod.demoEnv with
    cfg := ⟨2, 0, 5⟩
    kern := fun _ => kernelRings (ok 0) { wOrders with B1 := [0], B2 := [0] } (dft 5) false xExps xExps ⟨2, 0, 5⟩ (1 / 10 ^ 30)
    ring := fun south i => ringOf (ok 0) { wOrders with B1 := [0], B2 := [0] } (dft 5) false xExps xExps ⟨2, 0, 5⟩ (1 / 10 ^ 30) south
      (Tod.ringTheta ⟨2, 0, 5⟩ i) }

/-- The hypotheses of `C61_oversampling` hold together (order 5, the library's default; nothing above degree 1, grid for 2). -/
example : ∃ x : ℝ, Tod.sampleSpec xEnv 2 1 3 = ok x ∧
      ‖(x : ℂ) - fullConv false xExps xExps 2 0 1 2 3‖ ≤
        (∑ m ∈ Icc (-(2 : ℕ) : ℤ) (2 : ℕ), ∑ l ∈ Icc m.natAbs 2, ‖skyBeam false xExps xExps l m 0‖) *
          ((1 + wLambda (5 + 1)) * ((Real.pi * ((1 : ℕ) + 1 / 2) / ((2 : ℕ) + 1 / 2)) ^ (5 + 1) / (5 + 1).choose (5 / 2 + 1)) +
            wLambda (5 + 1) * (((1 : ℕ) + 1 / 2) / 10 ^ 15 + tau 2 (1 / 10 ^ 30))) := by
  refine C61_oversampling (e := xEnv) (ovf := ok 0) rfl xKernelOK xReal xReal xOrders_ok (fft := dft 5) (dft_backward 5)
    (eps := 1 / 10 ^ 30) (fun _ _ => rfl) (by decide) rfl (L := 1) ?_ (by norm_num) (by linarith [Real.pi_gt_three]) 2 3
  intro l m hl hl2 hm
  have hl2' : l = 2 := by
    have : l ≤ 2 := hl2
    omega
  subst hl2'
  have hz : ∀ n : ℕ, n ≤ 2 → coef xAlm 2 n = 0 := by
    intro n hn
    interval_cases n <;> (unfold coef Harm.Alm.get; simp [xAlm, Harm.index, Harm.indexL0, rd])
  have hz2 : coefZ xAlm 2 m = 0 := by
    have : m.natAbs ≤ 2 := abs_natAbs_le hm
    unfold coefZ; simp [hz _ this]
  show skyBeam false ⟨xAlm, xAlm, xAlm⟩ ⟨xAlm, xAlm, xAlm⟩ 2 m 0 = 0
  unfold skyBeam
  simp [hz2]

/-- The sum of the magnitudes of the weights is at most 9.6 for the default order. -/
example : wLambda 6 = 48 / 5 := by
  unfold wLambda
  norm_num [Nat.choose]

end Verif.Num
