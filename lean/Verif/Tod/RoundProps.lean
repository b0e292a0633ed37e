import Verif.Tod.RoundMain
import Verif.Util.Double
import Mathlib.Analysis.SpecialFunctions.Exp
import Mathlib.Analysis.Complex.ExponentialBounds

/-!
# C58: accuracy of the signal

In arithmetic with relative error at most `u` per operation, the signal that `convolve` writes for a sample differs from the exact
interpolation formula by at most an explicit multiple of `u`.
-/

namespace Verif.Tod
open Verif Res Spmd Finset FP

variable {rnd : ℝ → ℝ} {u : ℝ} {N0 : ℕ}

/-! ## Specification -/

/-- Lagrange polynomial of node `m` of the nodes `0 … N-1`. -/
noncomputable def lagrangeAt (N : ℕ) (x : ℝ) (m : ℕ) : ℝ := ∏ k ∈ (range N).erase m, ((x - k) / ((m : ℝ) - k))

/-- Exact interpolation on the stencil of `npoints × npoints` nodes that starts at ring `it0` and longitude `ip0`, at distance
`xt` (rings) and `xp` (longitudes) from the start of the stencil. -/
noncomputable def exactSignal (c : Cfg) (ring : ℕ → List ℝ) (psi : ℝ) (it0 ip0 : ℕ) (xt xp : ℝ) : ℝ :=
  2 * ∑ k ∈ range c.npoints, ∑ j ∈ range c.npoints,
    lagrangeAt c.npoints xt k * lagrangeAt c.npoints xp j * psiSum c (ring (it0 + k)) psi ((ip0 + j) % c.nphi)

/-- The point (theta, phi) lies at distance (`xt`, `xp`) from the start of the stencil; ring `i` has colatitude
`pi + (halfmargin - i) * pi/(lmax+1)`, longitude `p` is `pi/2 + p * 2 pi/nphi` (modulo full turns). -/
def AtStencil (c : Cfg) (theta phi : ℝ) (it0 ip0 : ℕ) (xt xp : ℝ) : Prop :=
  theta = Real.pi + ((c.halfmargin : ℝ) - (it0 + xt)) * (Real.pi / (c.lmax + 1)) ∧
  ∃ k : ℤ, phi = Real.pi / 2 + (ip0 + xp) * (2 * Real.pi / c.nphi) + 2 * Real.pi * k

/-- Calibration factor applied by the code. -/
noncomputable def calFactor (e : Env (FP rnd)) : ℝ := if e.calibrate && !e.normalized then 2 / (1 + e.eps.val) else 1

/-- Sum of the numbers of roundings that enter, weighted with the sensitivity of the result. -/
noncomputable def errConst (c : Cfg) (phi psi : ℝ) : ℝ :=
  (c.npoints ^ 2 + c.npsi + 4 * c.npoints + 15) + c.mbeam * (2 * |psi| + 14) +
    c.npoints * (26 * (2 * (c.lmax + 1) + c.halfmargin) + 16 * (|phi| * c.nphi / (2 * Real.pi) + c.nphi / 4) + c.nphi + 8 * (c.npoints + 1))

/-! ## the exact formula -/

theorem interpValue_exact (c : Cfg) (hord : c.order ≤ c.nphi) (ring : ℕ → List ℝ) (theta psi xp : ℝ) {it0 ip0 : ℤ} (h0 : 0 ≤ it0) (p0 : 0 ≤ ip0)
    (p1 : ip0 < c.nphi) :
    interpValue c (fun i => ring i.toNat) theta psi it0 ip0 xp =
      exactSignal c ring psi it0.toNat ip0.toNat ((theta - c.theta0) * c.invDtheta - it0) xp := by
  unfold interpValue exactSignal
  rw [mul_sum]
  refine sum_congr rfl (fun k hk => ?_)
  rw [mul_sum]
  refine sum_congr rfl (fun j hj => ?_)
  rw [mem_range] at hk hj
  obtain ⟨s0, s1, s2⟩ := (C14_stencil c hord p0 p1).1 j (by unfold Cfg.npoints at hj; omega)
  have e1 : (it0 + (k : ℤ)).toNat = it0.toNat + k := by omega
  have e2 : (stencil c ip0 j).toNat = (ip0.toNat + j) % c.nphi := by
    have : stencil c ip0 j = (ip0 + j) % c.nphi := by
      rw [← s2]; exact (Int.emod_eq_of_lt s0 s1).symm
    rw [this]
    conv_lhs => rw [show ip0 + (j : ℤ) = ((ip0.toNat + j : ℕ) : ℤ) by omega]
    rw [← Int.natCast_mod, Int.toNat_natCast]
  rw [wgt_real _ _ _ hj, wgt_real _ _ _ hk]
  show _ * (2 * _) * psiSum c (ring (it0 + (k : ℤ)).toNat) psi (stencil c ip0 j).toNat = _
  rw [e1, e2]
  unfold lagrangeAt
  ring

/-! ## linear bounds -/

theorem one_add_pow_le (h : 0 ≤ u) (n : ℕ) : (1 + u) ^ n ≤ Real.exp (n * u) := by
  rw [Real.exp_nat_mul]
  have := Real.add_one_le_exp u
  exact pow_le_pow_left₀ (by linarith) (by linarith) n

theorem exp_le_linear {t : ℝ} (h0 : 0 ≤ t) (h1 : t ≤ 1 / 2) : Real.exp t ≤ 1 + 2 * t := by
  have := Real.exp_bound_div_one_sub_of_interval h0 (by linarith)
  refine this.trans ?_
  rw [div_le_iff₀ (by linarith)]
  nlinarith

theorem pow_le_linear (h : 0 ≤ u) (n : ℕ) (hn : n * u ≤ 1 / 2) : (1 + u) ^ n - 1 ≤ 2 * (n * u) := by
  have := (one_add_pow_le h n).trans (exp_le_linear (by positivity) hn)
  linarith

theorem errConst_ge (c : Cfg) (phi psi : ℝ) :
    20 ≤ errConst c phi psi ∧ (c.npoints : ℝ) * (26 * (2 * (c.lmax + 1) + c.halfmargin) + 16 * (|phi| * c.nphi / (2 * Real.pi) + c.nphi / 4) +
      c.nphi + 8 * (c.npoints + 1)) ≤ errConst c phi psi := by
  have hpi := Real.pi_pos
  have h1 : (1 : ℝ) ≤ c.npoints := by unfold Cfg.npoints; push_cast; linarith [Nat.cast_nonneg (α := ℝ) c.order]
  have h2 : (0 : ℝ) ≤ c.mbeam * (2 * |psi| + 14) := by positivity
  have h3 : (0 : ℝ) ≤ (c.npoints : ℝ) * (26 * (2 * (c.lmax + 1) + c.halfmargin) + 16 * (|phi| * c.nphi / (2 * Real.pi) + c.nphi / 4) +
      c.nphi + 8 * (c.npoints + 1)) := by positivity
  have h4 : (0 : ℝ) ≤ c.npsi := Nat.cast_nonneg _
  unfold errConst
  constructor <;> nlinarith

theorem posErr_le (c : Cfg) (h : 0 ≤ u) {phi psi : ℝ} (hK : u * errConst c phi psi ≤ 1 / 2) :
    u ≤ 1 / 40 ∧ thetaErr c u ≤ 1 / 2 ∧
    (factorErr c.npoints u (posErrT c u) + factorErr c.npoints u (posErrP c u phi)) ≤
      u * (26 * (2 * (c.lmax + 1) + c.halfmargin) + 16 * (|phi| * c.nphi / (2 * Real.pi) + c.nphi / 4) + c.nphi + 8 * (c.npoints + 1)) := by
  have hpi := Real.pi_pos
  obtain ⟨k1, k2⟩ := errConst_ge c phi psi
  have hu : u ≤ 1 / 40 := by
    have := mul_le_mul_of_nonneg_left k1 h; linarith
  have h13 := pow_le_linear h 13 (by push_cast; linarith)
  have h8 := pow_le_linear h 8 (by push_cast; linarith)
  push_cast at h13 h8
  have h1 : (1 : ℝ) ≤ c.npoints := by unfold Cfg.npoints; push_cast; linarith [Nat.cast_nonneg (α := ℝ) c.order]
  have hio : (c.ioffset : ℝ) + 1 ≤ c.npoints := by
    have : c.ioffset + 1 ≤ c.npoints := by unfold Cfg.ioffset Cfg.npoints; omega
    exact_mod_cast this
  set A : ℝ := 2 * (c.lmax + 1) + c.halfmargin with hA
  have hA0 : 0 ≤ A := by positivity
  have hnp : (0 : ℝ) < c.nphi := by unfold Cfg.nphi; push_cast; positivity
  have eB : |phi| / (c.dphi : ℝ) = |phi| * c.nphi / (2 * Real.pi) := by
    rw [dphi_real]; field_simp
  set B : ℝ := |phi| * c.nphi / (2 * Real.pi) + c.nphi / 4 with hB
  have hB0 : 0 ≤ B := by positivity
  have t1 : thetaErr c u ≤ u * (26 * A) := by
    unfold thetaErr
    rw [← hA]
    have := mul_le_mul_of_nonneg_left h13 hA0
    linarith
  have t2 : phiErr c u phi ≤ u * (16 * B + c.nphi) := by
    unfold phiErr
    rw [eB, ← hB]
    have := mul_le_mul_of_nonneg_left h8 hB0
    linarith
  refine ⟨hu, t1.trans (le_trans (mul_le_mul_of_nonneg_left ?_ h) hK), ?_⟩
  · refine le_trans ?_ k2
    have h0 : 26 * A ≤ 26 * A + 16 * B + c.nphi + 8 * (c.npoints + 1) := by have : (0:ℝ) ≤ c.nphi := hnp.le; linarith
    exact h0.trans (le_mul_of_one_le_left (by positivity) h1)
  · unfold factorErr posErrT posErrP
    have t3 : u * (c.ioffset + 1 : ℝ) ≤ u * c.npoints := mul_le_mul_of_nonneg_left hio h
    have t4 : u * (2 + u) * (c.npoints + 1 : ℝ) ≤ u * 3 * (c.npoints + 1 : ℝ) :=
      mul_le_mul_of_nonneg_right (mul_le_mul_of_nonneg_left (by linarith) h) (by positivity)
    nlinarith

theorem angGrow_le (h : 0 ≤ u) (psi : ℝ) (n : ℕ) : angGrow u psi ^ n ≤ Real.exp (n * (u * (2 * |psi| + 14))) := by
  rw [Real.exp_nat_mul]
  refine pow_le_pow_left₀ (le_trans zero_le_one (angGrow_ge h psi)) ?_ n
  unfold angGrow
  rw [show u * (2 * |psi| + 14) = 4 * u + u * (2 * |psi| + 10) by ring, Real.exp_add]
  have h1 := Real.add_one_le_exp (4 * u)
  have h2 := Real.add_one_le_exp (u * (2 * |psi| + 10))
  exact mul_le_mul (by linarith) (by linarith) (by positivity) (Real.exp_pos _).le

theorem grow_le (c : Cfg) (h : 0 ≤ u) {phi psi : ℝ} (hK : u * errConst c phi psi ≤ 1 / 2) :
    sampleGrow c u psi (posErrT c u) (posErrP c u phi) * (1 + u) ^ 8 ≤ 1 + 2 * (u * errConst c phi psi) ∧
    (1 + posErrP c u phi) ^ c.npoints * (1 + posErrT c u) ^ c.npoints ≤ 2 := by
  obtain ⟨hu, _, hη⟩ := posErr_le c h hK
  obtain ⟨k1, k2⟩ := errConst_ge c phi psi
  have hpi := Real.pi_pos
  have dt : 0 ≤ posErrT c u := by
    unfold posErrT thetaErr
    have : (1 : ℝ) ≤ (1 + u) ^ 13 := one_le_pow₀ (by linarith)
    have : 0 ≤ (1 + u) ^ 13 - 1 := by linarith
    positivity
  have dp : 0 ≤ posErrP c u phi := by
    unfold posErrP phiErr
    have : (1 : ℝ) ≤ (1 + u) ^ 8 := one_le_pow₀ (by linarith)
    have : 0 ≤ (1 + u) ^ 8 - 1 := by linarith
    have := dphi_pos c
    positivity
  set W := 26 * (2 * ((c.lmax : ℝ) + 1) + c.halfmargin) + 16 * (|phi| * c.nphi / (2 * Real.pi) + c.nphi / 4) + c.nphi + 8 * (c.npoints + 1) with hW
  have et : posErrT c u ≤ factorErr c.npoints u (posErrT c u) := by
    unfold factorErr
    have : 0 ≤ u * (2 + u) * (c.npoints + 1 : ℝ) := by positivity
    linarith
  have ep : posErrP c u phi ≤ factorErr c.npoints u (posErrP c u phi) := by
    unfold factorErr
    have : 0 ≤ u * (2 + u) * (c.npoints + 1 : ℝ) := by positivity
    linarith
  set ηt := factorErr c.npoints u (posErrT c u) with hηt
  set ηp := factorErr c.npoints u (posErrP c u phi) with hηp
  have nt : 0 ≤ ηt := dt.trans et
  have np : 0 ≤ ηp := dp.trans ep
  have hK0 : 0 ≤ u * errConst c phi psi := mul_nonneg h (by linarith)
  refine ⟨?_, ?_⟩
  · refine le_trans ?_ (exp_le_linear hK0 hK)
    have hN : c.npoints - 1 ≤ c.npoints := by omega
    have b1 := one_add_pow_le h (c.npoints * c.npoints + c.npsi + 5)
    have b2 := angGrow_le h psi c.mbeam
    have b3 := one_add_pow_le h (2 * c.npoints + 1)
    have b4 := (pow_le_pow_right₀ (show (1 : ℝ) ≤ 1 + ηt by linarith) hN).trans (one_add_pow_le nt c.npoints)
    have b5 := (pow_le_pow_right₀ (show (1 : ℝ) ≤ 1 + ηp by linarith) hN).trans (one_add_pow_le np c.npoints)
    have b6 := one_add_pow_le h 8
    have q : ∀ x : ℝ, 0 ≤ Real.exp x := fun x => (Real.exp_pos x).le
    have ha : 0 ≤ angGrow u psi ^ c.mbeam := pow_nonneg (le_trans zero_le_one (angGrow_ge h psi)) _
    unfold sampleGrow sumGrow wgtGrow
    refine (mul_le_mul (mul_le_mul (mul_le_mul b1 b2 ha (q _)) (mul_le_mul (mul_le_mul b3 b4 (by positivity) (q _))
      (mul_le_mul b3 b5 (by positivity) (q _)) (by positivity) (mul_nonneg (q _) (q _))) (by positivity) (mul_nonneg (q _) (q _))) b6
      (by positivity) (mul_nonneg (mul_nonneg (q _) (q _)) (mul_nonneg (mul_nonneg (q _) (q _)) (mul_nonneg (q _) (q _))))).trans ?_
    simp only [← Real.exp_add]
    apply Real.exp_le_exp.mpr
    have h5 : (c.npoints : ℝ) * (ηt + ηp) ≤ c.npoints * (u * W) := mul_le_mul_of_nonneg_left hη (Nat.cast_nonneg _)
    unfold errConst
    rw [← hW]
    push_cast
    nlinarith
  · have b4 := one_add_pow_le dt c.npoints
    have b5 := one_add_pow_le dp c.npoints
    have q : ∀ x : ℝ, 0 ≤ Real.exp x := fun x => (Real.exp_pos x).le
    refine (mul_le_mul b5 b4 (by positivity) (q _)).trans ?_
    rw [← Real.exp_add]
    have h5 : (c.npoints : ℝ) * (ηt + ηp) ≤ c.npoints * (u * W) := mul_le_mul_of_nonneg_left hη (Nat.cast_nonneg _)
    have h6 : u * ((c.npoints : ℝ) * W) ≤ u * errConst c phi psi := mul_le_mul_of_nonneg_left k2 h
    have h7 : (c.npoints : ℝ) * (posErrP c u phi + posErrT c u) ≤ c.npoints * (ηp + ηt) :=
      mul_le_mul_of_nonneg_left (by linarith) (Nat.cast_nonneg _)
    have h8 : (c.npoints : ℝ) * posErrP c u phi + c.npoints * posErrT c u ≤ 1 / 2 := by nlinarith
    refine (exp_le_linear (by positivity) h8).trans (by linarith)

/-- Calibration of an approximate value. -/
theorem near_calib (he : RelErr rnd u) (hu : u ≤ 1 / 10) (hone : rnd 1 = 1) (htwo : rnd 2 = 2) (e : Env (FP rnd)) (heps : 0 ≤ e.eps.val) {v : FP rnd}
    {x A X : ℝ} (h : Near v.val x A X) :
    Near (calibSpec e v).val (calFactor e * x) (calFactor e * (A * (1 + u) ^ 8)) (calFactor e * X) := by
  have hu0 := he.nonneg
  have hA := h.A_nonneg
  unfold calibSpec calFactor
  split
  · have i := inv_pow hu0 hu
    have n1 := ((Near.exact (1 + e.eps.val)).round he)
    have hp : 0 < 1 + e.eps.val := by linarith
    rw [abs_of_pos hp] at n1
    have n2 : Near (rnd (1 + e.eps.val)) (1 + e.eps.val) (|1 + e.eps.val| * (1 + u) ^ 3) |1 + e.eps.val| := by
      rw [abs_of_pos hp]
      refine n1.mono (mul_le_mul_of_nonneg_left ?_ hp.le)
      nlinarith [pow_nonneg hu0 2, pow_nonneg hu0 3]
    have n3 := n2.inv hp.ne' i.1
    rw [abs_of_pos (show 0 < 1 / (1 + e.eps.val) by positivity)] at n3
    have n4 := (n3.mono (mul_le_mul_of_nonneg_left i.2 (show 0 ≤ 1 / (1 + e.eps.val) by positivity)))
    have n5 := (h.mul (((Near.exact (2 : ℝ)).mul n4).round he)).round he
    simp only [mul_val, div_val, add_val, ofInt_val, Int.cast_one, Int.cast_ofNat, hone, htwo]
    rw [abs_of_pos (show (0 : ℝ) < 2 by norm_num)] at n5
    rw [show (2 : ℝ) / (1 + e.eps.val) * x = x * (2 * (1 / (1 + e.eps.val))) by ring]
    rw [show (2 : ℝ) / rnd (1 + e.eps.val) = 2 * (1 / rnd (1 + e.eps.val)) by ring]
    have e1 : A * (2 * (1 / (1 + e.eps.val) * (1 + u) ^ 5) * (1 + u)) * (1 + u) = 2 / (1 + e.eps.val) * (A * (1 + u) ^ 7) := by ring
    rw [e1] at n5
    have hf : 0 ≤ 2 / (1 + e.eps.val) := by positivity
    have p : (1 + u) ^ 7 ≤ (1 + u) ^ 8 := pow_le_pow_right₀ (by linarith) (by norm_num)
    have := mul_le_mul_of_nonneg_left (mul_le_mul_of_nonneg_left p hA) hf
    have e2 : X * (2 * (1 / (1 + e.eps.val))) = 2 / (1 + e.eps.val) * X := by ring
    rw [e2] at n5
    exact n5.mono this
  · rw [one_mul, one_mul, one_mul]
    refine h.mono ?_
    have : (1 : ℝ) ≤ (1 + u) ^ 8 := one_le_pow₀ (by linarith)
    nlinarith

/-! ## the property -/

/-- C58: the signal of every sample returned by `convolve` differs from the exact interpolation formula (same ring numbers, the
stencil chosen by the code, exact position of the sample relative to the stencil) by at most `8 f Λ² S u K`: `f` the calibration
factor, `Λ` the Lebesgue-type constant of the weights, `S` a bound on the sum of the magnitudes of the numbers of a ring at one longitude,
`u` the relative error of one operation and `K` the explicit constant `errConst`.  The colatitude is folded to the northern half by
the code (`foldExact`: the exact fold); the sample lies in the central cell of the stencil up to a small fraction of a cell. -/
theorem C58_signal_error (hr : Rounding rnd N0) (he : RelErr rnd u) {e : Env (FP rnd)} (hE : EnvOKF e) (hg : SmallGrid e.cfg N0)
    (heps : 0 ≤ e.eps.val) {S : ℝ} (hS : ∀ h i, RingBound e.cfg ((e.ring h i).map FP.val) S)
    {n : ℕ} (hn : 1 ≤ n) {R : ℕ → List (Row (FP rnd))} (hR : (samples n R).length ≤ N0) {v : ℕ → List (Row (FP rnd))}
    (hv : Returns n (job e n R) v) :
    ∀ r < n, ∀ (i : ℕ) (y z : Row (FP rnd)), (R r)[i]? = some y → (v r)[i]? = some z →
      0 ≤ y.theta.val → y.theta.val ≤ rnd Real.pi → u * errConst e.cfg y.phi.val y.psi.val ≤ 1 / 2 →
      ∃ (it0 ip0 : ℕ) (xt xp : ℝ), it0 + e.cfg.npoints ≤ e.cfg.ntheta ∧ ip0 < e.cfg.nphi ∧
        AtStencil e.cfg (foldExact rnd y.theta.val) y.phi.val it0 ip0 xt xp ∧
        |xt - (e.cfg.ioffset + 1 / 2)| ≤ 1 / 2 + u * errConst e.cfg y.phi.val y.psi.val ∧
        |xp - (e.cfg.ioffset + 1 / 2)| ≤ 1 / 2 + u * errConst e.cfg y.phi.val y.psi.val ∧
        |z.sig.val - calFactor e * exactSignal e.cfg (fun i => (e.ring (decide (rnd (Real.pi / 2) ≤ y.theta.val)) i).map FP.val) y.psi.val it0 ip0 xt xp| ≤
          8 * calFactor e * lebesgue e.cfg ^ 2 * S * (u * errConst e.cfg y.phi.val y.psi.val) := by
  intro r hr' i y z hy hz h0 h1 hK
  have hu0 := he.nonneg
  set c := e.cfg with hc
  obtain ⟨hu, hT, hη⟩ := posErr_le c hu0 hK
  obtain ⟨k1, k2⟩ := errConst_ge c y.phi.val y.psi.val
  have hN3 : 3 ≤ N0 := by
    have := hg.ntheta
    have : 3 ≤ c.ntheta := by unfold Cfg.ntheta Cfg.margin Cfg.halfmargin; omega
    omega
  have hone : rnd 1 = 1 := by have := hr.int_exact 1 (by simp; omega); simpa using this
  have htwo : rnd 2 = 2 := by have := hr.int_exact 2 (by simp; omega); simpa using this
  obtain ⟨w, it0, ip0, k, xp, hw, _, r0, r1, t0, t1, p0, p1, hphi, q0, q1, hn'⟩ :=
    near_sampleSpec hr he (by linarith) (e := e) hg hE.ring_len hS y.phi y.theta y.psi h0 h1 hT
  have hV := valid_float hr hE hg.ord hg.nphi hn R hR
  obtain ⟨g, g1, g2⟩ := C03_sample_independent e
  have hsig := g2 _ n R hV v hv r hr'
  have hz' : z.sig = calibSpec e w := by
    have a1 := congrArg (fun l => l[i]?) hsig
    simp only [List.getElem?_map, hy, hz, Option.map_some, Option.some.injEq] at a1
    rw [a1, g1 _ _ _ _ hw]
  rw [← hc] at hn' t0 t1 q0 q1 p1 r1 hphi
  have hring : (!(Arith.lt y.theta (Arith.halfpi : FP rnd))) = decide (rnd (Real.pi / 2) ≤ y.theta.val) := by
    show (!(decide (y.theta.val < rnd (Real.pi / 2)))) = _
    by_cases h : y.theta.val < rnd (Real.pi / 2)
    · simp [h, not_le.mpr h]
    · simp [h, not_lt.mp h]
  rw [hring] at hn'
  set ring := fun i => (e.ring (decide (rnd (Real.pi / 2) ≤ y.theta.val)) i).map FP.val with hringd
  have hex := interpValue_exact c hg.ord ring (foldExact rnd y.theta.val) y.psi.val xp r0 p0 p1
  rw [show (fun i : ℤ => (e.ring (decide (rnd (Real.pi / 2) ≤ y.theta.val)) i.toNat).map FP.val) = fun i : ℤ => ring i.toNat from rfl, hex] at hn'
  have hcal := near_calib he (by linarith) hone htwo e heps hn'
  rw [← hz'] at hcal
  have hfac : 0 ≤ calFactor e := by unfold calFactor; split <;> positivity
  have hpi := Real.pi_pos
  have hd : (c.lmax : ℝ) + 1 ≠ 0 := by positivity
  -- the positions
  have hsmall : posErrT c u ≤ u * errConst c y.phi.val y.psi.val ∧ posErrP c u y.phi.val ≤ u * errConst c y.phi.val y.psi.val := by
    have a : 0 ≤ u * (2 + u) * (c.npoints + 1 : ℝ) := by positivity
    have h1n : (1 : ℝ) ≤ c.npoints := by unfold Cfg.npoints; push_cast; linarith [Nat.cast_nonneg (α := ℝ) c.order]
    have dt : 0 ≤ posErrT c u := by
      unfold posErrT thetaErr
      have : (1 : ℝ) ≤ (1 + u) ^ 13 := one_le_pow₀ (by linarith)
      have : 0 ≤ (1 + u) ^ 13 - 1 := by linarith
      positivity
    have dp : 0 ≤ posErrP c u y.phi.val := by
      unfold posErrP phiErr
      have : (1 : ℝ) ≤ (1 + u) ^ 8 := one_le_pow₀ (by linarith)
      have : 0 ≤ (1 + u) ^ 8 - 1 := by linarith
      have := dphi_pos c
      positivity
    unfold factorErr at hη
    have k3 : 26 * (2 * ((c.lmax : ℝ) + 1) + c.halfmargin) + 16 * (|y.phi.val| * c.nphi / (2 * Real.pi) + c.nphi / 4) + c.nphi + 8 * (c.npoints + 1) ≤
        errConst c y.phi.val y.psi.val := le_trans (le_mul_of_one_le_left (by positivity) h1n) k2
    have := mul_le_mul_of_nonneg_left k3 hu0
    constructor <;> linarith
  refine ⟨it0.toNat, ip0.toNat, (foldExact rnd y.theta.val - c.theta0) * c.invDtheta - it0, xp, by omega, by omega, ⟨?_, k, ?_⟩, ?_, ?_, ?_⟩
  · have e0 : ((it0.toNat : ℕ) : ℝ) = (it0 : ℝ) := by
      have : ((it0.toNat : ℕ) : ℤ) = it0 := by omega
      exact_mod_cast congrArg (Int.cast (R := ℝ)) this
    rw [e0, grid_pos]
    field_simp
    ring
  · have e0 : ((ip0.toNat : ℕ) : ℝ) = (ip0 : ℝ) := by
      have : ((ip0.toNat : ℕ) : ℤ) = ip0 := by omega
      exact_mod_cast congrArg (Int.cast (R := ℝ)) this
    rw [e0, ← dphi_real]
    exact hphi
  · rw [abs_le]; constructor <;> linarith [hsmall.1]
  · rw [abs_le]; constructor <;> linarith [hsmall.2]
  · obtain ⟨gr1, gr2⟩ := grow_le c hu0 hK
    have hS0 : 0 ≤ S := (ringAbs_nonneg c _ 0).trans (hS false 0 0 (by unfold Cfg.nphi; omega))
    have hL := (lebesgue_pos c).le
    refine hcal.2.trans ?_
    rw [← mul_sub]
    have hsz : sampleSize c S (posErrT c u) (posErrP c u y.phi.val) ≤ 4 * S * lebesgue c ^ 2 := by
      unfold sampleSize
      have := mul_le_mul_of_nonneg_left gr2 (show 0 ≤ 2 * S * lebesgue c ^ 2 by positivity)
      refine le_trans (le_of_eq ?_) (this.trans (le_of_eq ?_)) <;> ring
    have hsz0 : 0 ≤ sampleSize c S (posErrT c u) (posErrP c u y.phi.val) := hn'.X_nonneg
    have hK0 : 0 ≤ u * errConst c y.phi.val y.psi.val := mul_nonneg hu0 (by linarith)
    have s1 : sampleSize c S (posErrT c u) (posErrP c u y.phi.val) * sampleGrow c u y.psi.val (posErrT c u) (posErrP c u y.phi.val) * (1 + u) ^ 8 -
        sampleSize c S (posErrT c u) (posErrP c u y.phi.val) ≤ 4 * S * lebesgue c ^ 2 * (2 * (u * errConst c y.phi.val y.psi.val)) := by
      have a1 := mul_le_mul_of_nonneg_left gr1 hsz0
      have a2 := mul_le_mul_of_nonneg_right hsz (show 0 ≤ 2 * (u * errConst c y.phi.val y.psi.val) by positivity)
      rw [mul_add, mul_one] at a1
      rw [mul_assoc]
      linarith
    have := mul_le_mul_of_nonneg_left s1 hfac
    refine this.trans (le_of_eq (by ring))

end Verif.Tod
