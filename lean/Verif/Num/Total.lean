import Verif.Num.Accuracy
import Verif.Tod.RoundDbl
import Mathlib.Algebra.BigOperators.Field

/-!
# Accuracy of the signal in double precision (C62)
-/

namespace Verif.Num
open Verif Res Finset

/-! ## Specification -/

/-- The numbers of two rings differ, summed over the orders of the beam at any one longitude, by at most `ρ`. -/
def RingClose (c : Tod.Cfg) (ring ring' : List ℝ) (ρ : ℝ) : Prop :=
  ∀ p < c.nphi, ∑ k ∈ range c.npsi, (|ring.getD (2 * (p * c.npsi + k)) 0 - ring'.getD (2 * (p * c.npsi + k)) 0| +
    |ring.getD (2 * (p * c.npsi + k) + 1) 0 - ring'.getD (2 * (p * c.npsi + k) + 1) 0|) ≤ ρ

/-- Sum of the magnitudes of the terms of the convolution. -/
noncomputable def magnitude (pol : Bool) (s b : Exps) (lmax mbeam : ℕ) : ℝ :=
  ∑ m' ∈ Icc (-(mbeam : ℤ)) mbeam, ∑ m ∈ Icc (-(lmax : ℤ)) lmax, ∑ l ∈ Icc (max m.natAbs m'.natAbs) lmax, ‖skyBeam pol s b l m m'‖

/-- Relative error allowed for a term of degree `l` and sky order `m` (default interpolation order, six points): colatitude, longitude
and displacement of angles. -/
noncomputable def floatErr (lmax l : ℕ) (m : ℤ) : ℝ :=
  (Real.pi * (l + 1 / 2) / (lmax + 1)) ^ 6 / 15 +
  64 / 5 * ((2 * Real.pi * |(m : ℝ)| / (2 * lmax + 1)) ^ 6 / 15 + 2 * (l + 1 / 2) / 10 ^ 15)

/-! ## perturbed rings -/

theorem psiSum_close (c : Tod.Cfg) {ring ring' : List ℝ} {ρ : ℝ} (h : RingClose c ring ring' ρ) (psi : ℝ) {p : ℕ} (hp : p < c.nphi) :
    |Tod.psiSum c ring psi p - Tod.psiSum c ring' psi p| ≤ ρ := by
  refine le_trans ?_ (h p hp)
  unfold Tod.psiSum
  rw [← sum_sub_distrib]
  refine (abs_sum_le_sum_abs _ _).trans (sum_le_sum fun k _ => ?_)
  have h1 : |(if k = 0 then 1 / 2 else Real.cos (k * (psi + Real.pi / 2)))| ≤ 1 := by
    split
    · norm_num
    · exact Real.abs_cos_le_one _
  have h2 : |(if k = 0 then 0 else Real.sin (k * (psi + Real.pi / 2)))| ≤ 1 := by
    split
    · norm_num
    · exact Real.abs_sin_le_one _
  set α := (if k = 0 then 1 / 2 else Real.cos (k * (psi + Real.pi / 2)))
  set β := (if k = 0 then 0 else Real.sin (k * (psi + Real.pi / 2)))
  set r1 := ring.getD (2 * (p * c.npsi + k)) 0
  set r2 := ring'.getD (2 * (p * c.npsi + k)) 0
  set i1 := ring.getD (2 * (p * c.npsi + k) + 1) 0
  set i2 := ring'.getD (2 * (p * c.npsi + k) + 1) 0
  rw [show α * r1 - β * i1 - (α * r2 - β * i2) = α * (r1 - r2) - β * (i1 - i2) by ring]
  refine (abs_sub _ _).trans ?_
  rw [abs_mul, abs_mul]
  exact add_le_add (mul_le_of_le_one_left (abs_nonneg _) h1) (mul_le_of_le_one_left (abs_nonneg _) h2)

theorem exactSignal_close (c : Tod.Cfg) {ring ring' : ℕ → List ℝ} {ρ : ℝ} (h : ∀ i, RingClose c (ring i) (ring' i) ρ) (psi : ℝ)
    (it0 ip0 : ℕ) {q q' : ℕ} (hq : q < c.npoints) (hq' : q' < c.npoints) {x f : ℝ}
    (x0 : (q : ℝ) ≤ x) (x1 : x ≤ q + 1) (f0 : (q' : ℝ) ≤ f) (f1 : f ≤ q' + 1) :
    |Tod.exactSignal c ring psi it0 ip0 x f - Tod.exactSignal c ring' psi it0 ip0 x f| ≤
      2 * (cellLambda c.npoints q * cellLambda c.npoints q') * ρ := by
  have hn : 0 < c.nphi := by unfold Tod.Cfg.nphi; omega
  have hρ : 0 ≤ ρ := le_trans (sum_nonneg fun k _ => by positivity) (h 0 0 hn)
  have hw : ∀ (y : ℝ), ∀ k ∈ range c.npoints, Tod.lagrangeAt c.npoints y k = Tod.wgt c.npoints y k := by
    intro y k hk
    rw [Tod.wgt_real _ _ _ (mem_range.mp hk)]; rfl
  unfold Tod.exactSignal
  rw [← mul_sub, abs_mul, abs_of_pos (by norm_num : (0:ℝ) < 2), mul_assoc]
  apply mul_le_mul_of_nonneg_left _ (by norm_num)
  rw [← sum_sub_distrib]
  have hb1 := lebesgue_bound hq x0 x1
  have hb2 := lebesgue_bound hq' f0 f1
  calc _ ≤ ∑ k ∈ range c.npoints, ∑ j ∈ range c.npoints, |Tod.wgt c.npoints x k| * |Tod.wgt c.npoints f j| * ρ := by
        refine (abs_sum_le_sum_abs _ _).trans (sum_le_sum fun k hk => ?_)
        rw [← sum_sub_distrib]
        refine (abs_sum_le_sum_abs _ _).trans (sum_le_sum fun j hj => ?_)
        rw [← mul_sub, abs_mul, abs_mul, hw x k hk, hw f j hj]
        exact mul_le_mul_of_nonneg_left (psiSum_close c (h _) psi (Nat.mod_lt _ hn)) (by positivity)
    _ = (∑ k ∈ range c.npoints, |Tod.wgt c.npoints x k|) * (∑ j ∈ range c.npoints, |Tod.wgt c.npoints f j|) * ρ := by
        rw [sum_mul_sum, sum_mul]
        exact sum_congr rfl fun k _ => (sum_mul _ _ _).symm
    _ ≤ _ := by
        apply mul_le_mul_of_nonneg_right _ hρ
        exact mul_le_mul hb1 hb2 (sum_nonneg fun _ _ => abs_nonneg _) (by unfold cellLambda; positivity)

/-! ## size of the rings -/

theorem ringVal_norm {ovf : Res ℤ} {v : ℤ} (hovf : ovf = ok v) {pol : Bool} {s b : Exps} {lmax mbeam : ℕ} (h0 : 0 < lmax)
    (hL : lmax < 46341) (hn : mbeam ≤ lmax) (eps θ : ℝ) (south : Bool) (p : ℕ) {k : ℕ} (hk : k ≤ mbeam) :
    ‖ringVal ovf pol s b lmax eps θ (angleOf south θ) p k‖ ≤
      ∑ m ∈ Icc (-(lmax : ℤ)) lmax, ∑ l ∈ Icc (max m.natAbs k) lmax, ‖skyBeam pol s b l m k‖ := by
  have hF := ringFirst_ok hovf h0 hL hn eps θ south
  unfold ringVal
  have e1 : ‖Complex.exp (Complex.I * (Real.pi / 2) * k)‖ = 1 := by
    rw [show Complex.I * (Real.pi / 2) * k = ((Real.pi / 2 * k : ℝ) : ℂ) * Complex.I by push_cast; ring]
    exact Complex.norm_exp_ofReal_mul_I _
  rw [norm_mul, e1, one_mul]
  refine (norm_sum_le _ _).trans (sum_le_sum fun m hm => ?_)
  rw [norm_mul, norm_exp_order, mul_one]
  refine (norm_sum_le _ _).trans ?_
  have am : |m| ≤ (lmax : ℤ) := abs_le.mpr (mem_Icc.mp hm)
  have ak : |(k : ℤ)| ≤ (mbeam : ℤ) := by rw [abs_of_nonneg (by omega)]; exact_mod_cast hk
  obtain ⟨g1, g2⟩ := hF.lo k m ak am
  have hFF : ringFirst ovf lmax eps θ k m = kfirst ovf lmax [θ] eps k m.natAbs 0 := rfl
  rw [hFF, Int.natAbs_natCast] at g1
  rw [hFF] at g2
  refine le_trans (sum_le_sum fun l hl => ?_) (sum_le_sum_of_subset_of_nonneg (s := Ico (kfirst ovf lmax [θ] eps k m.natAbs 0) (lmax + 1))
    (fun l hl => ?_) (fun l _ _ => norm_nonneg _))
  · rw [mem_Ico] at hl
    unfold kterm
    rw [norm_mul, norm_mul, norm_pow, norm_neg, norm_one, one_pow, one_mul, Complex.norm_real, Real.norm_eq_abs]
    refine mul_le_of_le_one_left (norm_nonneg _) (abs_wignerD_le_one l ?_ ?_ _)
    · rw [abs_of_nonneg (by omega)]; omega
    · exact natAbs_abs_le (by omega)
  · rw [mem_Ico] at hl
    rw [mem_Icc]; omega

theorem ring_magnitude {ovf : Res ℤ} {v : ℤ} (hovf : ovf = ok v) {pol : Bool} {s b : Exps} {c : Tod.Cfg}
    (h : KernelOK pol s b c.lmax c.npsi) {o : Orders} (ho : o.OK c.lmax c.npsi) {fft : List ℂ → List ℂ} (hf : IsBackward fft c.nphi)
    (eps : ℝ) (south : Bool) (θ : ℝ) :
    Tod.RingBound c (ringOf ovf o fft pol s b c eps south θ) (2 * magnitude pol s b c.lmax c.mbeam) := by
  intro p hp
  have hspec := (ringOf_spec hovf h ho hf eps south θ).2
  have hmb : c.mbeam ≤ c.lmax := by have := h.npsi_le; unfold Tod.Cfg.npsi at this; omega
  let T : ℤ → ℝ := fun m' => ∑ m ∈ Icc (-(c.lmax : ℤ)) c.lmax, ∑ l ∈ Icc (max m.natAbs m'.natAbs) c.lmax, ‖skyBeam pol s b l m m'‖
  have hT : ∀ m', 0 ≤ T m' := fun m' => sum_nonneg fun m _ => sum_nonneg fun l _ => norm_nonneg _
  have h1 : Tod.ringAbs c (ringOf ovf o fft pol s b c eps south θ) p ≤ ∑ k ∈ range c.npsi, 2 * T k := by
    unfold Tod.ringAbs
    refine sum_le_sum fun k hk => ?_
    rw [mem_range] at hk
    obtain ⟨a1, a2⟩ := hspec p k hp hk
    rw [a1, a2]
    have hb := ringVal_norm hovf (pol := pol) (s := s) (b := b) h.pos h.lt hmb eps θ south p (k := k) (by unfold Tod.Cfg.npsi at hk; omega)
    have b1 := Complex.abs_re_le_norm (ringVal ovf pol s b c.lmax eps θ (angleOf south θ) p k)
    have b2 := Complex.abs_im_le_norm (ringVal ovf pol s b c.lmax eps θ (angleOf south θ) p k)
    have : (T k : ℝ) = ∑ m ∈ Icc (-(c.lmax : ℤ)) c.lmax, ∑ l ∈ Icc (max m.natAbs k) c.lmax, ‖skyBeam pol s b l m k‖ := by
      simp only [T, Int.natAbs_natCast]
    rw [this]
    linarith
  refine h1.trans ?_
  rw [← mul_sum]
  apply mul_le_mul_of_nonneg_left _ (by norm_num)
  show _ ≤ ∑ m' ∈ Icc (-(c.mbeam : ℤ)) c.mbeam, T m'
  rw [← sum_image (f := T) (s := range c.npsi) (g := fun k : ℕ => (k : ℤ)) (fun a _ b _ h => by simpa using h)]
  refine sum_le_sum_of_subset_of_nonneg (fun m' hm' => ?_) (fun m' _ _ => hT m')
  obtain ⟨k, hk, rfl⟩ := mem_image.mp hm'
  rw [mem_range] at hk
  unfold Tod.Cfg.npsi at hk
  rw [mem_Icc]; omega

theorem ringBound_of_close {c : Tod.Cfg} {ring ring' : List ℝ} {ρ S : ℝ} (h : RingClose c ring ring' ρ) (hS : Tod.RingBound c ring' S) :
    Tod.RingBound c ring (S + ρ) := by
  intro p hp
  have h1 := h p hp
  have h2 := hS p hp
  unfold Tod.ringAbs at h2 ⊢
  refine le_trans ?_ (add_le_add h2 h1)
  rw [← sum_add_distrib]
  refine sum_le_sum fun k _ => ?_
  have a := abs_sub_abs_le_abs_sub (ring.getD (2 * (p * c.npsi + k)) 0) (ring'.getD (2 * (p * c.npsi + k)) 0)
  have b := abs_sub_abs_le_abs_sub (ring.getD (2 * (p * c.npsi + k) + 1) 0) (ring'.getD (2 * (p * c.npsi + k) + 1) 0)
  linarith

/-! ## displacement of the colatitude -/

theorem fullConv_lipschitz (pol : Bool) (s b : Exps) (lmax mbeam : ℕ) {theta theta' η : ℝ} (phi psi : ℝ) (h : |theta - theta'| ≤ η) :
    ‖fullConv pol s b lmax mbeam theta phi psi - fullConv pol s b lmax mbeam theta' phi psi‖ ≤
      ∑ m' ∈ Icc (-(mbeam : ℤ)) mbeam, ∑ m ∈ Icc (-(lmax : ℤ)) lmax, ∑ l ∈ Icc (max m.natAbs m'.natAbs) lmax,
        ‖skyBeam pol s b l m m'‖ * ((l + 1 / 2) * η) := by
  unfold fullConv
  rw [← sum_sub_distrib]
  refine (norm_sum_le _ _).trans (sum_le_sum fun m' _ => ?_)
  rw [← sum_sub_distrib]
  refine (norm_sum_le _ _).trans (sum_le_sum fun m _ => ?_)
  rw [← sum_sub_distrib]
  refine (norm_sum_le _ _).trans (sum_le_sum fun l hl => ?_)
  rw [mem_Icc] at hl
  have al' : |m'| ≤ (l : ℤ) := natAbs_abs_le (le_trans (le_max_right _ _) hl.1)
  have al : |m| ≤ (l : ℤ) := natAbs_abs_le (le_trans (le_max_left _ _) hl.1)
  unfold convTerm
  rw [show (-1 : ℂ) ^ m.natAbs * (wignerD l m' m theta : ℂ) * skyBeam pol s b l m m' *
      Complex.exp (Complex.I * m * phi) * Complex.exp (Complex.I * m' * psi) -
      (-1) ^ m.natAbs * (wignerD l m' m theta' : ℂ) * skyBeam pol s b l m m' *
      Complex.exp (Complex.I * m * phi) * Complex.exp (Complex.I * m' * psi) =
      (-1) ^ m.natAbs * skyBeam pol s b l m m' * Complex.exp (Complex.I * m * phi) * Complex.exp (Complex.I * m' * psi) *
        ((wignerD l m' m theta - wignerD l m' m theta' : ℝ) : ℂ) by push_cast; ring]
  rw [norm_mul, norm_mul, norm_mul, norm_mul, norm_pow, norm_neg, norm_one, one_pow, one_mul, norm_exp_order, norm_exp_order, mul_one,
    mul_one, Complex.norm_real, Real.norm_eq_abs]
  apply mul_le_mul_of_nonneg_left _ (norm_nonneg _)
  refine (wignerD_lipschitz l al' al theta theta').trans ?_
  exact mul_le_mul_of_nonneg_left h (by positivity)

/-! ## cells of the default stencil -/

theorem cell_of_near {x : ℝ} (h : |x - 5 / 2| ≤ 1 / 2 + 1 / 10 ^ 9) :
    ∃ q : ℕ, q < 6 ∧ (q : ℝ) ≤ x ∧ x < q + 1 ∧ 15 ≤ (Nat.choose 6 (q + 1)) := by
  have h1 := abs_le.mp h
  have hx1 : 1 ≤ x := by norm_num at h1; linarith [h1.1]
  have hx4 : x < 4 := by norm_num at h1; linarith [h1.2]
  have hf1 : 1 ≤ ⌊x⌋ := Int.le_floor.mpr (by exact_mod_cast hx1)
  have hf4 : ⌊x⌋ < 4 := Int.floor_lt.mpr (by exact_mod_cast hx4)
  have e : ((⌊x⌋.toNat : ℕ) : ℝ) = (⌊x⌋ : ℝ) := by
    have : ((⌊x⌋.toNat : ℕ) : ℤ) = ⌊x⌋ := Int.toNat_of_nonneg (by omega)
    exact_mod_cast congrArg (Int.cast : ℤ → ℝ) this
  refine ⟨⌊x⌋.toNat, by omega, by rw [e]; exact Int.floor_le x, by rw [e]; exact Int.lt_floor_add_one x, ?_⟩
  have : ⌊x⌋.toNat = 1 ∨ ⌊x⌋.toNat = 2 ∨ ⌊x⌋.toNat = 3 := by omega
  rcases this with h | h | h <;> rw [h] <;> decide

theorem cellLambda_six {q : ℕ} (h : 15 ≤ Nat.choose 6 (q + 1)) : 0 ≤ cellLambda 6 q ∧ cellLambda 6 q ≤ 64 / 5 := by
  have h' : (15 : ℝ) ≤ (Nat.choose 6 (q + 1) : ℕ) := by exact_mod_cast h
  unfold cellLambda
  refine ⟨by positivity, ?_⟩
  rw [div_le_iff₀ (by linarith)]
  norm_num
  linarith

theorem cellErr_six {lmax q q' l : ℕ} (m : ℤ) (h : 15 ≤ Nat.choose 6 (q + 1)) (h2 : 15 ≤ Nat.choose 6 (q' + 1)) :
    cellErr lmax 6 q q' l m + (l + 1 / 2) * (1 / 10 ^ 15) ≤ floatErr lmax l m := by
  have h' : (15 : ℝ) ≤ (Nat.choose 6 (q + 1) : ℕ) := by exact_mod_cast h
  have h2' : (15 : ℝ) ≤ (Nat.choose 6 (q' + 1) : ℕ) := by exact_mod_cast h2
  obtain ⟨c0, c1⟩ := cellLambda_six h
  unfold cellErr floatErr
  have hpi := Real.pi_pos
  set A := (Real.pi * ((l : ℝ) + 1 / 2) / (lmax + 1)) ^ 6
  set B := (2 * Real.pi * |(m : ℝ)| / (2 * lmax + 1)) ^ 6
  have hA : 0 ≤ A := by positivity
  have hB : 0 ≤ B := by positivity
  have e1 : A / (Nat.choose 6 (q + 1) : ℕ) ≤ A / 15 := div_le_div_of_nonneg_left hA (by norm_num) h'
  have e2 : B / (Nat.choose 6 (q' + 1) : ℕ) ≤ B / 15 := div_le_div_of_nonneg_left hB (by norm_num) h2'
  set L : ℝ := (l : ℝ) + 1 / 2 with hL
  have hL0 : 0 ≤ L := by positivity
  have hB15 : 0 ≤ B / 15 := by positivity
  have e3 : cellLambda 6 q * (B / (Nat.choose 6 (q' + 1) : ℕ) + L / 10 ^ 15) ≤ 64 / 5 * (B / 15 + L / 10 ^ 15) := by
    apply mul_le_mul c1 (by linarith) (by positivity) (by norm_num)
  have e4 : 64 / 5 * (B / 15 + L / 10 ^ 15) + L * (1 / 10 ^ 15) ≤ 64 / 5 * (B / 15 + 2 * L / 10 ^ 15) := by
    have : 0 ≤ L / 10 ^ 15 := by positivity
    rw [show 2 * L / 10 ^ 15 = 2 * (L / 10 ^ 15) by ring, show L * (1 / 10 ^ 15) = L / 10 ^ 15 by ring]
    linarith
  linarith

/-- The stencil of a position, as sums of weights. -/
theorem exactSignal_wgt (c : Tod.Cfg) (ring : ℕ → List ℝ) (psi : ℝ) (it0 ip0 : ℕ) (x f : ℝ) :
    Tod.exactSignal c ring psi it0 ip0 x f = ∑ k ∈ range c.npoints, ∑ j ∈ range c.npoints,
      Tod.wgt c.npoints x k * (Tod.wgt c.npoints f j * (2 * Tod.psiSum c (ring ((it0 : ℤ) + k).toNat) psi (((ip0 : ℤ) + j) % (c.nphi : ℤ)).toNat)) := by
  unfold Tod.exactSignal
  rw [mul_sum]
  refine sum_congr rfl fun k hk => ?_
  rw [mul_sum]
  refine sum_congr rfl fun j hj => ?_
  rw [Tod.wgt_real _ _ _ (mem_range.mp hk), Tod.wgt_real _ _ _ (mem_range.mp hj)]
  have e1 : ((it0 : ℤ) + k).toNat = it0 + k := by omega
  have e2 : (((ip0 : ℤ) + j) % (c.nphi : ℤ)).toNat = (ip0 + j) % c.nphi := by
    rw [show (ip0 : ℤ) + j = ((ip0 + j : ℕ) : ℤ) by push_cast; rfl, ← Int.natCast_mod, Int.toNat_natCast]
  rw [e1, e2]
  unfold Tod.lagrangeAt
  ring

/-- General form: `δ` bounds the elements of the degrees left out. -/
theorem float_core {ovf : Res ℤ} {w : ℤ} (hovf : ovf = ok w) {pol : Bool} {s b : Exps} {e : Tod.Env (Tod.FP Double.dbl)}
    (hE : Tod.EnvOKF e) (ho5 : e.cfg.order = 5) (hl2 : 2 ≤ e.cfg.lmax) (hl : e.cfg.lmax ≤ 4000) (hm : e.cfg.mbeam ≤ 20)
    (heps : 0 ≤ e.eps.val) (h : KernelOK pol s b e.cfg.lmax e.cfg.npsi) (hs : RealField pol e.cfg.lmax s) (hb : RealField pol e.cfg.lmax b)
    {o : Orders} (ho : o.OK e.cfg.lmax e.cfg.npsi) {fft : List ℂ → List ℂ} (hf : IsBackward fft e.cfg.nphi) {eps ρ : ℝ}
    (hρ : ∀ south (i : ℕ), RingClose e.cfg ((e.ring south i).map Tod.FP.val)
      (ringOf ovf o fft pol s b e.cfg eps south (Tod.ringTheta e.cfg i)) ρ)
    {n : ℕ} (hn : 1 ≤ n) {R : ℕ → List (Tod.Row (Tod.FP Double.dbl))} (hR : (Tod.samples n R).length ≤ 2 ^ 52)
    {v : ℕ → List (Tod.Row (Tod.FP Double.dbl))} (hv : Spmd.Returns n (Tod.job e n R) v) :
    ∀ r < n, ∀ (i : ℕ) (y z : Tod.Row (Tod.FP Double.dbl)), (R r)[i]? = some y → (v r)[i]? = some z →
      0 ≤ y.theta.val → y.theta.val ≤ Double.dbl Real.pi → |y.phi.val| ≤ 63 / 10 → |y.psi.val| ≤ 63 / 10 →
      ∃ (it : ℤ) (south : Bool),
        (∀ k < 6, ∃ t : ℤ, |angleOf south (Tod.ringTheta e.cfg (it + (k : ℕ))) - (y.theta.val - 2 * Real.pi * t)| ≤
          Real.pi / (e.cfg.lmax + 1) * 6 + 2 / 10 ^ 15) ∧
        ∀ δ : ℤ → ℤ → ℕ → ℝ, (∀ m' m l, 0 ≤ δ m' m l) →
          (∀ k < 6, ∀ (m' m : ℤ) (l : ℕ), |m'| ≤ e.cfg.mbeam → |m| ≤ e.cfg.lmax → l ≤ e.cfg.lmax → |m'| ≤ l → |m| ≤ l →
            l < ringFirst ovf e.cfg.lmax eps (Tod.ringTheta e.cfg (it + (k : ℕ))) m' m →
            |wignerD l m' m (angleOf south (Tod.ringTheta e.cfg (it + (k : ℕ))))| ≤ δ m' m l) →
          ‖(z.sig.val : ℂ) - Tod.calFactor e * fullConv pol s b e.cfg.lmax e.cfg.mbeam y.theta.val y.phi.val y.psi.val‖ ≤
            Tod.calFactor e * (4 / 10 ^ 7 * magnitude pol s b e.cfg.lmax e.cfg.mbeam + 328 * ρ +
              ∑ m' ∈ Icc (-(e.cfg.mbeam : ℤ)) e.cfg.mbeam, ∑ m ∈ Icc (-(e.cfg.lmax : ℤ)) e.cfg.lmax,
                ∑ l ∈ Icc (max m.natAbs m'.natAbs) e.cfg.lmax, ‖skyBeam pol s b l m m'‖ *
                  (floatErr e.cfg.lmax l m + 64 / 5 * δ m' m l)) := by
  intro r hr i y z hy hz t0 t1 hph hps
  set c := e.cfg with hc
  have hmb : c.mbeam ≤ c.lmax := by have := h.npsi_le; unfold Tod.Cfg.npsi at this; omega
  have hN : c.npoints = 6 := by unfold Tod.Cfg.npoints; rw [ho5]
  have hn0 : 0 < c.nphi := by unfold Tod.Cfg.nphi; omega
  have hρ0 : 0 ≤ ρ := le_trans (sum_nonneg fun k _ => by positivity) (hρ false 0 0 hn0)
  have hmag : 0 ≤ magnitude pol s b c.lmax c.mbeam :=
    sum_nonneg fun _ _ => sum_nonneg fun _ _ => sum_nonneg fun _ _ => norm_nonneg _
  have hS : ∀ hh i, Tod.RingBound c ((e.ring hh i).map Tod.FP.val) (2 * magnitude pol s b c.lmax c.mbeam + ρ) :=
    fun hh i => ringBound_of_close (hρ hh i) (ring_magnitude hovf h ho hf eps hh _)
  obtain ⟨it0, ip0, xt, xp, hi1, hp1, ⟨hat, kk, hap⟩, hxt, hxp, hsig⟩ :=
    Tod.C58_binary64 hE ho5 hl2 hl hm heps hS hn hR hv r hr i y z hy hz t0 t1 hph hps
  rw [← hc] at hi1 hp1 hat hap hsig
  set θ := y.theta.val with hθ
  set φ := y.phi.val with hφ
  set ψ := y.psi.val with hψ
  set south := decide (Double.dbl (Real.pi / 2) ≤ θ) with hsouth
  let X : ℕ → List ℝ := fun i => ringOf ovf o fft pol s b c eps south (Tod.ringTheta c i)
  obtain ⟨q, q6, x0, x1, hq⟩ := cell_of_near hxt
  obtain ⟨q', q6', f0, f1, hq'⟩ := cell_of_near hxp
  have hclose := exactSignal_close c (ring := fun i => (e.ring south i).map Tod.FP.val) (ring' := X) (fun i => hρ south i) ψ it0 ip0
    (q := q) (q' := q') (by rw [hN]; exact q6) (by rw [hN]; exact q6') x0 x1.le f0 f1.le
  obtain ⟨cl0, cl1⟩ := cellLambda_six hq
  obtain ⟨cl0', cl1'⟩ := cellLambda_six hq'
  -- the angle at which the rings are interpolated
  set target : ℝ := if south then Real.pi - Tod.foldExact Double.dbl θ else Tod.foldExact Double.dbl θ with htgt
  have hpi := Real.pi_pos
  have hdb : |Double.dbl (Real.pi / 2) - Real.pi / 2| ≤ 1 / 2 ^ 53 * (Real.pi / 2) := by
    have := Tod.relErr_dbl.rel (Real.pi / 2)
    rwa [abs_of_pos (show 0 < Real.pi / 2 by positivity)] at this
  have htarget : |target - θ| ≤ 1 / 10 ^ 15 := by
    have hsmall : (1 : ℝ) / 2 ^ 53 * Real.pi ≤ 1 / 10 ^ 15 := by
      have := Real.pi_lt_four
      norm_num
      linarith
    have h15 : (0 : ℝ) ≤ 1 / 10 ^ 15 := by positivity
    rw [htgt]
    unfold Tod.foldExact
    by_cases hlt : Double.dbl (Real.pi / 2) < θ
    · have hst : south = true := by rw [hsouth]; exact decide_eq_true hlt.le
      rw [if_pos hst, if_pos hlt]
      rw [show Real.pi - (Real.pi - θ) - θ = 0 by ring, abs_zero]; exact h15
    · by_cases heq : Double.dbl (Real.pi / 2) = θ
      · have hst : south = true := by rw [hsouth]; exact decide_eq_true heq.le
        rw [if_pos hst, if_neg hlt]
        rw [← heq, show Real.pi - Double.dbl (Real.pi / 2) - Double.dbl (Real.pi / 2) =
          -2 * (Double.dbl (Real.pi / 2) - Real.pi / 2) by ring, abs_mul]
        norm_num at hdb hsmall ⊢
        linarith
      · have hst : ¬ south = true := by
          rw [hsouth]
          intro hd
          exact hlt (lt_of_le_of_ne (of_decide_eq_true hd) heq)
        rw [if_neg hst, if_neg hlt, sub_self, abs_zero]; exact h15
  have hdt : (c.dtheta : ℝ) = -(Real.pi / (c.lmax + 1)) := Tod.dtheta_real c
  have hrt : Tod.ringTheta c (it0 : ℤ) + xt * (c.dtheta : ℝ) = Tod.foldExact Double.dbl θ := by
    unfold Tod.ringTheta
    rw [hat, Tod.theta0_real, hdt]
    push_cast; ring
  have hta : (if south then Real.pi - Tod.ringTheta c (it0 : ℤ) else Tod.ringTheta c (it0 : ℤ)) +
      xt * (if south then -(c.dtheta : ℝ) else c.dtheta) = target := by
    rw [htgt, ← hrt]
    split <;> ring
  have hphi : φ = Tod.nodePhi c (ip0 : ℤ) + xp * (2 * Real.pi / (2 * c.lmax + 1)) + 2 * Real.pi * kk := by
    rw [hap]
    unfold Tod.nodePhi Tod.Cfg.nphi
    push_cast; ring
  obtain ⟨hang, hacc⟩ := stencil_core hovf h hs hb ho hf (ring := X) (south := south) (fun i => rfl) (it := it0) (ip := ip0) (by omega)
    (q := q) (q' := q') (by rw [hN]; exact q6) (by rw [hN]; exact q6') x0 x1 f0 f1 ψ hta hphi
  rw [hN] at hang hacc
  refine ⟨it0, south, ?_, fun δ hδ0 hδ => ?_⟩
  · intro k hk
    obtain ⟨t, ht⟩ := hang k hk
    refine ⟨t, ?_⟩
    rw [ho5] at ht
    set ang := angleOf south (Tod.ringTheta c ((it0 : ℤ) + (k : ℕ)))
    rw [show ang - (θ - 2 * Real.pi * t) = (ang - (target - 2 * Real.pi * t)) + (target - θ) by ring]
    refine (abs_add_le _ _).trans ?_
    push_cast at ht
    norm_num at ht htarget ⊢
    linarith
  have hmain := hacc δ hδ0 hδ
  rw [← hN] at hmain
  rw [← exactSignal_wgt c X ψ it0 ip0 xt xp] at hmain
  have hlip := fullConv_lipschitz pol s b c.lmax c.mbeam φ ψ htarget
  set F := Tod.calFactor e with hF
  have hF0 : 0 ≤ F := by rw [hF]; unfold Tod.calFactor; split <;> positivity
  set E1 := Tod.exactSignal c (fun i => (e.ring south i).map Tod.FP.val) ψ it0 ip0 xt xp with hE1
  set E2 := Tod.exactSignal c X ψ it0 ip0 xt xp with hE2
  set C1 := fullConv pol s b c.lmax c.mbeam target φ ψ with hC1
  set C2 := fullConv pol s b c.lmax c.mbeam θ φ ψ with hC2
  set M := magnitude pol s b c.lmax c.mbeam with hM
  have hd : (z.sig.val : ℂ) - F * C2 = ((z.sig.val - F * E1 : ℝ) : ℂ) + F * ((((E1 - E2 : ℝ) : ℂ)) + (((E2 : ℂ) - C1) + (C1 - C2))) := by
    push_cast; ring
  rw [hd]
  refine (norm_add_le _ _).trans ?_
  rw [norm_mul, Complex.norm_real, Complex.norm_real, Real.norm_eq_abs, Real.norm_of_nonneg hF0]
  have p1 : |z.sig.val - F * E1| ≤ F * (2 / 10 ^ 7 * (2 * M + ρ)) := hsig.trans (le_of_eq (by ring))
  have p2 : ‖((E1 - E2 : ℝ) : ℂ)‖ ≤ 2 * (64 / 5 * (64 / 5)) * ρ := by
    rw [Complex.norm_real, Real.norm_eq_abs]
    refine hclose.trans (mul_le_mul_of_nonneg_right ?_ hρ0)
    rw [hN]
    exact mul_le_mul_of_nonneg_left (mul_le_mul cl1 cl1' cl0' (by norm_num)) (by norm_num)
  have p3 := (norm_add_le (((E1 - E2 : ℝ) : ℂ)) (((E2 : ℂ) - C1) + (C1 - C2))).trans
    (add_le_add p2 ((norm_add_le ((E2 : ℂ) - C1) (C1 - C2)).trans (add_le_add hmain hlip)))
  refine (add_le_add p1 (mul_le_mul_of_nonneg_left p3 hF0)).trans ?_
  rw [← mul_add]
  apply mul_le_mul_of_nonneg_left _ hF0
  have hsum : (∑ m' ∈ Icc (-(c.mbeam : ℤ)) c.mbeam, ∑ m ∈ Icc (-(c.lmax : ℤ)) c.lmax,
            ∑ l ∈ Icc (max m.natAbs m'.natAbs) c.lmax,
              ‖skyBeam pol s b l m m'‖ * (cellErr c.lmax c.npoints q q' l m + cellLambda c.npoints q * δ m' m l)) +
      (∑ m' ∈ Icc (-(c.mbeam : ℤ)) c.mbeam, ∑ m ∈ Icc (-(c.lmax : ℤ)) c.lmax, ∑ l ∈ Icc (max m.natAbs m'.natAbs) c.lmax,
        ‖skyBeam pol s b l m m'‖ * (((l : ℝ) + 1 / 2) * (1 / 10 ^ 15))) ≤
      ∑ m' ∈ Icc (-(c.mbeam : ℤ)) c.mbeam, ∑ m ∈ Icc (-(c.lmax : ℤ)) c.lmax,
              ∑ l ∈ Icc (max m.natAbs m'.natAbs) c.lmax, ‖skyBeam pol s b l m m'‖ *
                (floatErr c.lmax l m + 64 / 5 * δ m' m l) := by
    rw [← sum_add_distrib]
    refine sum_le_sum fun m' _ => ?_
    rw [← sum_add_distrib]
    refine sum_le_sum fun m _ => ?_
    rw [← sum_add_distrib]
    refine sum_le_sum fun l _ => ?_
    rw [← mul_add]
    apply mul_le_mul_of_nonneg_left _ (norm_nonneg _)
    have := cellErr_six (lmax := c.lmax) (l := l) m hq hq'
    rw [hN]
    have hw := mul_le_mul_of_nonneg_right cl1 (hδ0 m' m l)
    linarith
  have : (2 / 10 ^ 7 * (2 * M + ρ) : ℝ) = 4 / 10 ^ 7 * M + 2 / 10 ^ 7 * ρ := by ring
  rw [this]
  norm_num at hsum ⊢
  linarith

/-! ## Property theorem -/

/-- C62: binary64 arithmetic (no overflow or underflow), the default interpolation order 5, `lmax` up to 4000, `beammmax` up to 20,
longitudes and position angles up to a full turn.  If the rings the code has computed are within `ρ` of the exact ones, then in every job
that returns, on every rank and for every sample, the signal differs from the total convolution at the pointing (times the calibration
factor) by at most the calibration factor times: `4e-7` of the magnitude of the convolution (rounding), `328 ρ`, and for
every term its magnitude times `floatErr`, plus `64/5` for the terms flagged by `W`.  A term is flagged only if one of the elements
`d^l_{m',±m}` is negligible at an angle of the stencil. -/
theorem C62_binary64 {ovf : Res ℤ} {w : ℤ} (hovf : ovf = ok w) {pol : Bool} {s b : Exps} {e : Tod.Env (Tod.FP Double.dbl)}
    (hE : Tod.EnvOKF e) (ho5 : e.cfg.order = 5) (hl2 : 2 ≤ e.cfg.lmax) (hl : e.cfg.lmax ≤ 4000) (hm : e.cfg.mbeam ≤ 20)
    (heps : 0 ≤ e.eps.val) (h : KernelOK pol s b e.cfg.lmax e.cfg.npsi) (hs : RealField pol e.cfg.lmax s) (hb : RealField pol e.cfg.lmax b)
    {o : Orders} (ho : o.OK e.cfg.lmax e.cfg.npsi) {fft : List ℂ → List ℂ} (hf : IsBackward fft e.cfg.nphi) {eps ρ : ℝ}
    (hρ : ∀ south (i : ℕ), RingClose e.cfg ((e.ring south i).map Tod.FP.val)
      (ringOf ovf o fft pol s b e.cfg eps south (Tod.ringTheta e.cfg i)) ρ)
    {n : ℕ} (hn : 1 ≤ n) {R : ℕ → List (Tod.Row (Tod.FP Double.dbl))} (hR : (Tod.samples n R).length ≤ 2 ^ 52)
    {v : ℕ → List (Tod.Row (Tod.FP Double.dbl))} (hv : Spmd.Returns n (Tod.job e n R) v) :
    ∀ r < n, ∀ (i : ℕ) (y z : Tod.Row (Tod.FP Double.dbl)), (R r)[i]? = some y → (v r)[i]? = some z →
      0 ≤ y.theta.val → y.theta.val ≤ Double.dbl Real.pi → |y.phi.val| ≤ 63 / 10 → |y.psi.val| ≤ 63 / 10 →
      ∃ W : ℤ → ℤ → ℕ → Bool,
        (∀ m' m l, W m' m l = true → ∃ (ϑ : ℝ) (t : ℤ),
          |ϑ - (y.theta.val - 2 * Real.pi * t)| ≤ Real.pi / (e.cfg.lmax + 1) * 6 + 2 / 10 ^ 15 ∧
          (|wignerD l m' m ϑ| ≤ tau e.cfg.lmax eps ∨ |wignerD l m' (-m) ϑ| ≤ tau e.cfg.lmax eps)) ∧
        ‖(z.sig.val : ℂ) - Tod.calFactor e * fullConv pol s b e.cfg.lmax e.cfg.mbeam y.theta.val y.phi.val y.psi.val‖ ≤
          Tod.calFactor e * (4 / 10 ^ 7 * magnitude pol s b e.cfg.lmax e.cfg.mbeam + 328 * ρ +
            ∑ m' ∈ Icc (-(e.cfg.mbeam : ℤ)) e.cfg.mbeam, ∑ m ∈ Icc (-(e.cfg.lmax : ℤ)) e.cfg.lmax,
              ∑ l ∈ Icc (max m.natAbs m'.natAbs) e.cfg.lmax, ‖skyBeam pol s b l m m'‖ *
                (floatErr e.cfg.lmax l m + if W m' m l then 64 / 5 else 0)) := by
  intro r hr i y z hy hz t0 t1 hph hps
  have hmb : e.cfg.mbeam ≤ e.cfg.lmax := by have := h.npsi_le; unfold Tod.Cfg.npsi at this; omega
  obtain ⟨it, south, hang, hacc⟩ := float_core hovf hE ho5 hl2 hl hm heps h hs hb ho hf hρ hn hR hv r hr i y z hy hz t0 t1 hph hps
  obtain ⟨W, hWd⟩ : ∃ W : ℤ → ℤ → ℕ → Bool, ∀ m' m l, W m' m l = true ↔ (|m'| ≤ e.cfg.mbeam ∧ |m| ≤ e.cfg.lmax ∧ l ≤ e.cfg.lmax ∧
      |m'| ≤ l ∧ |m| ≤ l ∧ ∃ k : ℕ, k < 6 ∧ l < ringFirst ovf e.cfg.lmax eps (Tod.ringTheta e.cfg (it + (k : ℕ))) m' m) := by
    classical
    exact ⟨fun m' m l => decide _, fun m' m l => decide_eq_true_iff⟩
  refine ⟨W, ?_, ?_⟩
  · intro m' m l hW
    obtain ⟨a1, a2, a3, a4, a5, k, hk, hlt⟩ := (hWd m' m l).mp hW
    obtain ⟨t, ht⟩ := hang k hk
    exact ⟨_, t, ht, (ringFirst_ok hovf h.pos h.lt hmb eps _ south).dropped m' m a1 a2 l (abs_natAbs_le a4) (abs_natAbs_le a5) a3 hlt⟩
  · have := hacc (fun m' m l => if W m' m l then 1 else 0) (fun m' m l => by split <;> norm_num) (by
      intro k hk m' m l a1 a2 a3 a4 a5 hlt
      have hW : W m' m l = true := (hWd m' m l).mpr ⟨a1, a2, a3, a4, a5, k, hk, hlt⟩
      simp only [hW, if_true]
      exact abs_wignerD_le_one l a4 a5 _)
    refine this.trans (le_of_eq ?_)
    congr 2
    apply sum_congr rfl
    intro m' _
    apply sum_congr rfl
    intro m _
    apply sum_congr rfl
    intro l _
    congr 2
    split <;> ring

/-- C62, axisymmetric beams and oversampling: if the product of the expansions has no degree above `L`, the error is at most the
calibration factor times `328 ρ` plus the magnitude of the convolution times
`4e-7 + floatErr' + 64/5 tau`, where `floatErr'` falls with the sixth power of the oversampling. -/
theorem C62_oversampling {ovf : Res ℤ} {w : ℤ} (hovf : ovf = ok w) {pol : Bool} {s b : Exps} {e : Tod.Env (Tod.FP Double.dbl)}
    (hE : Tod.EnvOKF e) (ho5 : e.cfg.order = 5) (hl2 : 2 ≤ e.cfg.lmax) (hl : e.cfg.lmax ≤ 4000) (hm : e.cfg.mbeam = 0)
    (heps : 0 ≤ e.eps.val) (h : KernelOK pol s b e.cfg.lmax e.cfg.npsi) (hs : RealField pol e.cfg.lmax s) (hb : RealField pol e.cfg.lmax b)
    {o : Orders} (ho : o.OK e.cfg.lmax e.cfg.npsi) {fft : List ℂ → List ℂ} (hf : IsBackward fft e.cfg.nphi) {eps ρ : ℝ}
    (hρ : ∀ south (i : ℕ), RingClose e.cfg ((e.ring south i).map Tod.FP.val)
      (ringOf ovf o fft pol s b e.cfg eps south (Tod.ringTheta e.cfg i)) ρ)
    {L : ℕ} (hL : ∀ (l : ℕ) (m : ℤ), L < l → l ≤ e.cfg.lmax → |m| ≤ l → skyBeam pol s b l m 0 = 0)
    {n : ℕ} (hn : 1 ≤ n) {R : ℕ → List (Tod.Row (Tod.FP Double.dbl))} (hR : (Tod.samples n R).length ≤ 2 ^ 52)
    {v : ℕ → List (Tod.Row (Tod.FP Double.dbl))} (hv : Spmd.Returns n (Tod.job e n R) v) :
    ∀ r < n, ∀ (i : ℕ) (y z : Tod.Row (Tod.FP Double.dbl)), (R r)[i]? = some y → (v r)[i]? = some z →
      0 ≤ y.theta.val → y.theta.val ≤ Double.dbl Real.pi → |y.phi.val| ≤ 63 / 10 → |y.psi.val| ≤ 63 / 10 →
        ‖(z.sig.val : ℂ) - Tod.calFactor e * fullConv pol s b e.cfg.lmax 0 y.theta.val y.phi.val y.psi.val‖ ≤
          Tod.calFactor e * (328 * ρ + magnitude pol s b e.cfg.lmax 0 *
            (4 / 10 ^ 7 + (23 / 25 * (Real.pi * (L + 1 / 2) / (e.cfg.lmax + 1 / 2)) ^ 6 + 64 / 5 * (2 * (L + 1 / 2) / 10 ^ 15)) +
              64 / 5 * tau e.cfg.lmax eps)) := by
  intro r hr i y z hy hz t0 t1 hph hps
  have hmb : e.cfg.mbeam ≤ e.cfg.lmax := by omega
  obtain ⟨it, south, hang, hacc⟩ := float_core hovf hE ho5 hl2 hl (by omega) heps h hs hb ho hf hρ hn hR hv r hr i y z hy hz t0 t1 hph hps
  have := hacc (fun _ _ _ => tau e.cfg.lmax eps) (fun _ _ _ => tau_nonneg _ _) (by
    intro k hk m' m l a1 a2 a3 a4 a5 hlt
    have hm' : m' = 0 := by rw [hm] at a1; simpa using a1
    subst hm'
    rcases (ringFirst_ok hovf h.pos h.lt hmb eps _ south).dropped 0 m a1 a2 l (abs_natAbs_le a4) (abs_natAbs_le a5) a3 hlt with d | d
    · exact d
    · have hn := wignerD_neg_neg l (m' := 0) (m := m) a4 a5 (angleOf south (Tod.ringTheta e.cfg (it + k)))
      rw [neg_zero] at hn
      rw [hn, abs_mul, abs_pow, abs_neg, abs_one, one_pow, one_mul] at d
      exact d)
  rw [hm] at this
  have hF0 : 0 ≤ Tod.calFactor e := by unfold Tod.calFactor; split <;> positivity
  refine this.trans (mul_le_mul_of_nonneg_left ?_ hF0)
  have hpi := Real.pi_pos
  have key : (∑ m' ∈ Icc (-((0 : ℕ) : ℤ)) (0 : ℕ), ∑ m ∈ Icc (-(e.cfg.lmax : ℤ)) e.cfg.lmax,
                ∑ l ∈ Icc (max m.natAbs m'.natAbs) e.cfg.lmax, ‖skyBeam pol s b l m m'‖ *
                  (floatErr e.cfg.lmax l m + 64 / 5 * tau e.cfg.lmax eps)) ≤ magnitude pol s b e.cfg.lmax 0 *
      ((23 / 25 * (Real.pi * (L + 1 / 2) / (e.cfg.lmax + 1 / 2)) ^ 6 + 64 / 5 * (2 * (L + 1 / 2) / 10 ^ 15)) + 64 / 5 * tau e.cfg.lmax eps) := by
    unfold magnitude
    rw [sum_mul]
    refine sum_le_sum fun m' hm' => ?_
    have hm0 : m' = 0 := by rw [mem_Icc] at hm'; omega
    subst hm0
    rw [sum_mul]
    refine sum_le_sum fun m _ => ?_
    rw [sum_mul]
    refine sum_le_sum fun l hl => ?_
    rw [mem_Icc] at hl
    have al : |m| ≤ (l : ℤ) := natAbs_abs_le (le_trans (le_max_left _ _) hl.1)
    by_cases hlL : l ≤ L
    · apply mul_le_mul_of_nonneg_left _ (norm_nonneg _)
      apply add_le_add_left
      have hlL' : (l : ℝ) ≤ L := by exact_mod_cast hlL
      have hmr : |(m : ℝ)| ≤ l := by
        have : ((|m| : ℤ) : ℝ) ≤ ((l : ℤ) : ℝ) := by exact_mod_cast al
        rwa [Int.cast_abs, Int.cast_natCast] at this
      set lm : ℝ := (e.cfg.lmax : ℝ)
      have hlm : 0 ≤ lm := Nat.cast_nonneg _
      have e1 : Real.pi * ((l : ℝ) + 1 / 2) / (lm + 1) ≤ Real.pi * (L + 1 / 2) / (lm + 1 / 2) := by
        apply div_le_div₀ (by positivity) _ (by positivity) (by linarith)
        exact mul_le_mul_of_nonneg_left (by linarith) hpi.le
      have e2 : 2 * Real.pi * |(m : ℝ)| / (2 * lm + 1) ≤ Real.pi * (L + 1 / 2) / (lm + 1 / 2) := by
        rw [show 2 * Real.pi * |(m : ℝ)| / (2 * lm + 1) = Real.pi * |(m : ℝ)| / (lm + 1 / 2) by
          rw [div_eq_div_iff (by positivity) (by positivity)]; ring]
        exact div_le_div_of_nonneg_right (mul_le_mul_of_nonneg_left (by linarith) hpi.le) (by positivity)
      have p1 := pow_le_pow_left₀ (by positivity) e1 6
      have p2 := pow_le_pow_left₀ (by positivity) e2 6
      have p3 : 2 * ((l : ℝ) + 1 / 2) / 10 ^ 15 ≤ 2 * (L + 1 / 2) / 10 ^ 15 := div_le_div_of_nonneg_right (by linarith) (by positivity)
      unfold floatErr
      linarith
    · rw [hL l m (by omega) hl.2 al, norm_zero, zero_mul, zero_mul]
  linarith

/-! ## Witness -/

theorem getD_map_dbl (l : List ℝ) (i : ℕ) :
    (((l.map (fun x => (⟨Double.dbl x⟩ : Tod.FP Double.dbl))).map Tod.FP.val).getD i 0) = Double.dbl (l.getD i 0) := by
  rw [List.map_map]
  simp only [List.getD, List.getElem?_map]
  cases l[i]? with
  | none => simp [Double.rounding_dbl.zero]
  | some x => simp

/-- Rings stored in double precision are within a relative `2^-53` of the exact ones. -/
theorem ringClose_dbl {c : Tod.Cfg} {ring : List ℝ} {S : ℝ} (h : Tod.RingBound c ring S) :
    RingClose c ((ring.map (fun x => (⟨Double.dbl x⟩ : Tod.FP Double.dbl))).map Tod.FP.val) ring (S / 2 ^ 53) := by
  intro p hp
  have hb := div_le_div_of_nonneg_right (h p hp) (show (0:ℝ) ≤ 2 ^ 53 by positivity)
  refine le_trans ?_ hb
  unfold Tod.ringAbs
  rw [Finset.sum_div]
  refine sum_le_sum fun k _ => ?_
  rw [getD_map_dbl, getD_map_dbl, add_div]
  exact add_le_add (Double.dbl_rel _) (Double.dbl_rel _)

/-- Rings of `xExps` in double precision: `lmax = 2`, axisymmetric beam, default order. -/
noncomputable def yEnv : Tod.Env (Tod.FP Double.dbl) :=
  { Tod.dblEnv with
    cfg := ⟨2, 0, 5⟩
    kern := fun _ mine => do
      let k ← kernelRings (ok 0) { wOrders with B1 := [0], B2 := [0] } (dft 5) false xExps xExps ⟨2, 0, 5⟩ (1 / 10 ^ 30) mine
      ok (k.1.map (List.map (fun x => ⟨Double.dbl x⟩)), k.2.map (List.map (fun x => ⟨Double.dbl x⟩)))
    ring := fun south i => (ringOf (ok 0) { wOrders with B1 := [0], B2 := [0] } (dft 5) false xExps xExps ⟨2, 0, 5⟩ (1 / 10 ^ 30) south
      (Tod.ringTheta ⟨2, 0, 5⟩ i)).map (fun x => ⟨Double.dbl x⟩) }

theorem yEnv_ok : Tod.EnvOKF yEnv where
  sort := Tod.dblEnv_ok.sort
  sched := Tod.dblEnv_ok.sched
  nan := Tod.dblEnv_ok.nan
  verb := Tod.dblEnv_ok.verb
  ring_len := fun h i => by
    show List.length (List.map _ _) = _
    rw [List.length_map]
    exact (ringOf_spec (c := ⟨2, 0, 5⟩) rfl xKernelOK xOrders_ok (dft_backward 5) _ h _).1
  kern := fun _ mine => by
    show (kernelRings _ _ _ _ _ _ _ _ mine).bind _ = _
    rw [kernelRings_eq (c := ⟨2, 0, 5⟩) rfl xKernelOK xOrders_ok xOrders_ok (dft_backward 5) mine]
    simp only [Res.bind, List.map_map, yEnv]
    rfl

/-- All hypotheses of `C62_oversampling` (and so of `float_core` and `C62_binary64`) hold together, and the job returns. -/
example : ∃ v, Spmd.Returns 1 (Tod.job yEnv 1 Tod.dblRows) v ∧ ∃ z, (v 0)[0]? = some z ∧
    ‖(z.sig.val : ℂ) - (2 : ℝ) * fullConv false xExps xExps 2 0 0 1 2‖ ≤
      2 * (328 * (2 * magnitude false xExps xExps 2 0 / 2 ^ 53) + magnitude false xExps xExps 2 0 *
            (4 / 10 ^ 7 + (23 / 25 * (Real.pi * ((2 : ℕ) + 1 / 2) / ((2 : ℕ) + 1 / 2)) ^ 6 + 64 / 5 * (2 * ((2 : ℕ) + 1 / 2) / 10 ^ 15)) +
              64 / 5 * tau 2 (1 / 10 ^ 30))) := by
  have hV := Tod.valid_float Double.rounding_dbl yEnv_ok (by simp [yEnv, Tod.Cfg.nphi]) (by simp [yEnv, Tod.Cfg.nphi]) (n := 1) le_rfl Tod.dblRows
    (by simp [Tod.samples, Tod.dblRows])
  have hD : Tod.Distributed yEnv 1 Tod.dblRows [Tod.Arith.ofInt 0] := by
    refine ⟨fun r _ y hy => ?_, fun _ => [1, 0, 0, 0], fun r _ => Tod.dblRows_hits r, rfl⟩
    simp only [Tod.dblRows, List.mem_singleton] at hy
    subst hy
    rw [Tod.FP.lt_false, Tod.FP.lt_false]
    refine ⟨?_, Double.rounding_dbl.nonneg Real.pi_pos.le⟩
    rw [Tod.FP.ofInt_val, Int.cast_zero, Double.rounding_dbl.zero]
  obtain ⟨v, hv⟩ := Tod.C06_terminates_if_all_active_partial hV hD (fun r _ => Or.inl (by simp [Tod.dblRows]))
  have hl : (v 0).length = 1 := by
    rw [(Tod.C01_rows_in_place hV hv 0 (by norm_num)).1]; rfl
  obtain ⟨z, hz⟩ : ∃ z, (v 0)[0]? = some z := ⟨_, List.getElem?_eq_getElem (by omega)⟩
  have hc : Tod.calFactor yEnv = 2 := by simp [Tod.calFactor, yEnv, Tod.dblEnv]
  have := C62_oversampling (e := yEnv) (ovf := ok 0) rfl yEnv_ok rfl (by simp [yEnv]) (by simp [yEnv]) rfl (by simp [yEnv, Tod.dblEnv]) xKernelOK xReal
    xReal xOrders_ok (fft := dft 5) (dft_backward 5) (eps := 1 / 10 ^ 30) (ρ := 2 * magnitude false xExps xExps 2 0 / 2 ^ 53)
    (fun south i => ringClose_dbl (ring_magnitude (c := ⟨2, 0, 5⟩) rfl xKernelOK xOrders_ok (dft_backward 5) _ south _))
    (L := 2) (fun l m h1 h2 => by have : l ≤ 2 := h2; omega) le_rfl
    (by simp [Tod.samples, Tod.dblRows]) hv 0 (by norm_num) 0 _ z rfl hz le_rfl (Double.rounding_dbl.nonneg Real.pi_pos.le) (by norm_num) (by norm_num)
  rw [hc] at this
  exact ⟨v, hv, z, hz, this⟩

end Verif.Num
