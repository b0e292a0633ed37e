import Verif.Num.RKernelErr

/-!
# Accuracy of the signal with the rings computed in floating point (C64)
-/

namespace Verif.Num
open Verif Res Finset

/-! ## size of the error -/

theorem one_add_pow_le {x : ℝ} (hx : 0 ≤ x) {n : ℕ} (h : (n : ℝ) * x ≤ 1 / 11) : (1 + x) ^ n ≤ 1 + 11 / 10 * (n * x) := by
  induction n with
  | zero => simp
  | succ n ih =>
    push_cast at h ⊢
    have hn : 0 ≤ (n : ℝ) * x := by positivity
    have h' : (n : ℝ) * x ≤ 1 / 11 := by linarith
    have a := mul_le_mul_of_nonneg_right (ih h') (show 0 ≤ 1 + x by linarith)
    rw [pow_succ]
    refine a.trans ?_
    have e : (1 + 11 / 10 * ((n : ℝ) * x)) * (1 + x) = 1 + 11 / 10 * (n * x) + x * (1 + 11 / 10 * (n * x)) := by ring
    rw [e]
    have c : 11 / 10 * (((n : ℝ) + 1) * x) = 11 / 10 * (n * x) + 11 / 10 * x := by ring
    rw [c]
    have := mul_le_mul_of_nonneg_left (show 1 + 11 / 10 * ((n : ℝ) * x) ≤ 11 / 10 by linarith) hx
    linarith

theorem mul_small {a b x y : ℝ} (hx : 0 ≤ x) (hy : 0 ≤ y) (ha : a ≤ 1 + x) (hb : b ≤ 1 + y) (ha0 : 0 ≤ a) : a * b ≤ 1 + (x + y + x * y) := by
  calc a * b ≤ a * (1 + y) := mul_le_mul_of_nonneg_left hb ha0
    _ ≤ (1 + x) * (1 + y) := mul_le_mul_of_nonneg_right ha (by linarith)
    _ = _ := by ring

/-- Binary32 and binary64 arithmetic, `lmax` up to 4000. -/
theorem growth_small (pol : Bool) {lmax : ℕ} (hl : lmax ≤ 4000) {δ κ φ : ℝ} (h1 : 0 ≤ δ) (h2 : 0 ≤ κ) (h3 : 0 ≤ φ)
    (hs : δ + 6 * κ + φ ≤ 1 / 100) :
    growth pol lmax (1 / 2 ^ 24) (1 / 2 ^ 53) δ κ φ ≤ 1 + (4 / 10 ^ 7 + 2 * (δ + 6 * κ + φ)) := by
  have hu : (1 + (1 / 2 ^ 53 : ℝ)) ^ (lmax + 10) ≤ 1 + 1 / 10 ^ 11 := by
    have := one_add_pow_le (x := 1 / 2 ^ 53) (n := lmax + 10) (by positivity) (by
      have : ((lmax + 10 : ℕ) : ℝ) ≤ 4010 := by exact_mod_cast (by omega)
      calc ((lmax + 10 : ℕ) : ℝ) * (1 / 2 ^ 53) ≤ 4010 * (1 / 2 ^ 53) := mul_le_mul_of_nonneg_right this (by positivity)
        _ ≤ _ := by norm_num)
    refine this.trans ?_
    have h4 : ((lmax + 10 : ℕ) : ℝ) ≤ 4010 := by exact_mod_cast (by omega)
    have := mul_le_mul_of_nonneg_right h4 (show (0:ℝ) ≤ 1 / 2 ^ 53 by positivity)
    have h5 : (4010 : ℝ) * (1 / 2 ^ 53) ≤ 1 / 10 ^ 12 := by norm_num
    have h6 : (11 / 10 : ℝ) * (1 / 10 ^ 12) ≤ 1 / 10 ^ 11 := by norm_num
    linarith
  have hp : 2 * ((1 + (1 / 2 ^ 24 : ℝ)) ^ (if pol then 3 else 1) * (1 + 1 / 2 ^ 53) ^ 2) - 1 ≤ 1 + 36 / 10 ^ 8 := by
    cases pol <;> norm_num
  have hp0 : 0 ≤ 2 * ((1 + (1 / 2 ^ 24 : ℝ)) ^ (if pol then 3 else 1) * (1 + 1 / 2 ^ 53) ^ 2) - 1 := by
    cases pol <;> norm_num
  have e : growth pol lmax (1 / 2 ^ 24) (1 / 2 ^ 53) δ κ φ =
      (2 * ((1 + (1 / 2 ^ 24 : ℝ)) ^ (if pol then 3 else 1) * (1 + 1 / 2 ^ 53) ^ 2) - 1) * ((1 + (1 / 2 ^ 53 : ℝ)) ^ (lmax + 7) *
        (1 + 2 * (1 / 2 ^ 53)) ^ 3) * ((1 + δ) * (1 + 2 * κ) ^ 3 * (1 + φ)) := by
    unfold growth
    set P := 2 * ((1 + (1 / 2 ^ 24 : ℝ)) ^ (if pol then 3 else 1) * (1 + 1 / 2 ^ 53) ^ 2) - 1
    set v : ℝ := 1 / 2 ^ 53
    rw [show lmax + 7 = (lmax + 1) + 6 by ring, pow_add]
    ring
  have hu2 : (1 + (1 / 2 ^ 53 : ℝ)) ^ (lmax + 7) * (1 + 2 * (1 / 2 ^ 53)) ^ 3 ≤ 1 + 2 / 10 ^ 11 := by
    have a : (1 + (1 / 2 ^ 53 : ℝ)) ^ (lmax + 7) ≤ 1 + 1 / 10 ^ 11 :=
      (pow_le_pow_right₀ (by norm_num) (by omega)).trans hu
    have b : (1 + 2 * (1 / 2 ^ 53 : ℝ)) ^ 3 ≤ 1 + 1 / 10 ^ 14 := by norm_num
    refine (mul_small (by positivity) (by positivity) a b (by positivity)).trans ?_
    norm_num
  have hq : (1 + δ) * (1 + 2 * κ) ^ 3 * (1 + φ) ≤ 1 + 11 / 10 * (δ + 6 * κ + φ) := by
    set t := δ + 6 * κ + φ with ht
    have a : (1 + 2 * κ) ^ 3 ≤ 1 + (6 * κ + 1 / 20 * (6 * κ)) := by
      have hk : κ ≤ 1 / 600 := by linarith
      nlinarith [mul_nonneg h2 h2, mul_nonneg (mul_nonneg h2 h2) h2, mul_le_mul_of_nonneg_left hk h2,
        mul_le_mul_of_nonneg_left hk (mul_nonneg h2 h2)]
    have b := mul_small (a := 1 + δ) (x := δ) (y := 6 * κ + 1 / 20 * (6 * κ)) h1 (by positivity) le_rfl a (by linarith)
    have b' : (1 + δ) * (1 + 2 * κ) ^ 3 ≤ 1 + (δ + 6 * κ + 7 / 100 * (6 * κ)) := by
      refine b.trans ?_
      have : δ * (6 * κ + 1 / 20 * (6 * κ)) ≤ 1 / 100 * (6 * κ + 1 / 20 * (6 * κ)) := mul_le_mul_of_nonneg_right (by linarith) (by positivity)
      linarith
    have d := mul_small (x := δ + 6 * κ + 7 / 100 * (6 * κ)) (y := φ) (by positivity) h3 b' (le_refl (1 + φ)) (by positivity)
    refine d.trans ?_
    have : (δ + 6 * κ + 7 / 100 * (6 * κ)) * φ ≤ 2 / 100 * φ := mul_le_mul_of_nonneg_right (by linarith) h3
    linarith
  rw [e]
  have a := mul_small (x := 36 / 10 ^ 8) (y := 2 / 10 ^ 11) (by positivity) (by positivity) hp hu2 hp0
  have a' : (2 * ((1 + (1 / 2 ^ 24 : ℝ)) ^ (if pol then 3 else 1) * (1 + 1 / 2 ^ 53) ^ 2) - 1) * ((1 + (1 / 2 ^ 53 : ℝ)) ^ (lmax + 7) *
        (1 + 2 * (1 / 2 ^ 53)) ^ 3) ≤ 1 + 37 / 10 ^ 8 := a.trans (by norm_num)
  have ht0 : 0 ≤ δ + 6 * κ + φ := by positivity
  have d := mul_small (x := 37 / 10 ^ 8) (y := 11 / 10 * (δ + 6 * κ + φ)) (by positivity) (by positivity) a' hq (mul_nonneg hp0 (by positivity))
  refine d.trans ?_
  have : 37 / 10 ^ 8 * (11 / 10 * (δ + 6 * κ + φ)) ≤ 1 / 10 * (11 / 10 * (δ + 6 * κ + φ)) :=
    mul_le_mul_of_nonneg_right (by norm_num) (by positivity)
  linarith

/-! ## the job -/

/-- The kernel of a job computes in floating point as `f` does. -/
def RunsKernel (e : Tod.Env (Tod.FP Double.dbl)) (f : FKern) (o : ℕ → Orders) (pol : Bool) (s b : Exps) : Prop :=
  ∀ r mine, e.kern r mine = (do
    let k ← kernelRingsR f (o r) pol s b e.cfg mine
    ok (k.1.map (List.map (fun x => ⟨x⟩)), k.2.map (List.map (fun x => ⟨x⟩))))

theorem rings_of_kernel {ovf : Res ℤ} {w : ℤ} (hovf : ovf = ok w) {pol : Bool} {s b : Exps} {e : Tod.Env (Tod.FP Double.dbl)}
    (hE : Tod.EnvOKF e) (h : KernelOK pol s b e.cfg.lmax e.cfg.npsi) {f : FKern} {eps us u δ κ φ : ℝ}
    (hA : Accurate f ovf e.cfg eps us u δ κ φ) {o : ℕ → Orders} (hO : ∀ r, (o r).OK e.cfg.lmax e.cfg.npsi) (hK : RunsKernel e f o pol s b)
    {o' : Orders} (ho' : o'.OK e.cfg.lmax e.cfg.npsi) {fft : List ℂ → List ℂ} (hf : IsBackward fft e.cfg.nphi) (south : Bool) (i : ℕ) :
    RingClose e.cfg ((e.ring south i).map Tod.FP.val) (ringOf ovf o' fft pol s b e.cfg eps south (Tod.ringTheta e.cfg i))
      (2 * (growth pol e.cfg.lmax us u δ κ φ - 1) * absMagnitude pol s b e.cfg.lmax e.cfg.mbeam) := by
  obtain ⟨ring, hr, hc⟩ := C64_rings hovf h hA ho' hf
  have h1 := hE.kern 0 [i]
  rw [hK 0 [i], hr _ (hO 0) [i], ok_bind] at h1
  have h2 := Res.ok.inj h1
  have e1 : ∀ south, e.ring south i = (ring south i).map (fun x => ⟨x⟩) := by
    intro south
    cases south with
    | false => have := congrArg Prod.fst h2; simpa using this.symm
    | true => have := congrArg Prod.snd h2; simpa using this.symm
  rw [e1, List.map_map]
  have : (Tod.FP.val ∘ fun x : ℝ => (⟨x⟩ : Tod.FP Double.dbl)) = id := rfl
  rw [this, List.map_id]
  exact (hc south i).2

/-- C64: the whole computation in floating point.  Products of coefficients in binary32, everything else in binary64 (no overflow or
underflow), the default interpolation order 5, `lmax` up to 4000, `beammmax` up to 20, longitudes and position angles up to a
full turn; elements of the d-functions accurate to `δ`, tables of sines and cosines to `κ`, the transform to `φ` of the sum of the
magnitudes of its input.  In every job that returns, on every rank and for every sample, the signal differs from the total convolution at
the pointing (times the calibration factor) by at most the calibration factor times: `4e-7` of the magnitude of the convolution,
`2624e-7 + 1312 (δ + 6 κ + φ)` of the sum of the magnitudes of the products, and for every term its magnitude times `floatErr`, plus `64/5` for the
terms flagged by `W`.  A term is flagged only if one of the elements `d^l_{m',±m}` is negligible at an angle of the stencil. -/
theorem C64_signal {ovf : Res ℤ} {w : ℤ} (hovf : ovf = ok w) {pol : Bool} {s b : Exps} {e : Tod.Env (Tod.FP Double.dbl)}
    (hE : Tod.EnvOKF e) (ho5 : e.cfg.order = 5) (hl2 : 2 ≤ e.cfg.lmax) (hl : e.cfg.lmax ≤ 4000) (hm : e.cfg.mbeam ≤ 20)
    (heps : 0 ≤ e.eps.val) (h : KernelOK pol s b e.cfg.lmax e.cfg.npsi) (hs : RealField pol e.cfg.lmax s) (hb : RealField pol e.cfg.lmax b)
    {f : FKern} {eps δ κ φ : ℝ} (hA : Accurate f ovf e.cfg eps (1 / 2 ^ 24) (1 / 2 ^ 53) δ κ φ) (hsm : δ + 6 * κ + φ ≤ 1 / 100)
    {o : ℕ → Orders} (hO : ∀ r, (o r).OK e.cfg.lmax e.cfg.npsi) (hK : RunsKernel e f o pol s b)
    {n : ℕ} (hn : 1 ≤ n) {R : ℕ → List (Tod.Row (Tod.FP Double.dbl))} (hR : (Tod.samples n R).length ≤ 2 ^ 52)
    {v : ℕ → List (Tod.Row (Tod.FP Double.dbl))} (hv : Spmd.Returns n (Tod.job e n R) v) :
    ∀ r < n, ∀ (i : ℕ) (y z : Tod.Row (Tod.FP Double.dbl)), (R r)[i]? = some y → (v r)[i]? = some z →
      0 ≤ y.theta.val → y.theta.val ≤ Double.dbl Real.pi → |y.phi.val| ≤ 63 / 10 → |y.psi.val| ≤ 63 / 10 →
      ∃ W : ℤ → ℤ → ℕ → Bool,
        (∀ m' m l, W m' m l = true → ∃ (ϑ : ℝ) (t : ℤ),
          |ϑ - (y.theta.val - 2 * Real.pi * t)| ≤ Real.pi / (e.cfg.lmax + 1) * 6 + 2 / 10 ^ 15 ∧
          (|wignerD l m' m ϑ| ≤ tau e.cfg.lmax eps ∨ |wignerD l m' (-m) ϑ| ≤ tau e.cfg.lmax eps)) ∧
        ‖(z.sig.val : ℂ) - Tod.calFactor e * fullConv pol s b e.cfg.lmax e.cfg.mbeam y.theta.val y.phi.val y.psi.val‖ ≤
          Tod.calFactor e * (4 / 10 ^ 7 * magnitude pol s b e.cfg.lmax e.cfg.mbeam +
            (2624 / 10 ^ 7 + 1312 * (δ + 6 * κ + φ)) * absMagnitude pol s b e.cfg.lmax e.cfg.mbeam +
            ∑ m' ∈ Icc (-(e.cfg.mbeam : ℤ)) e.cfg.mbeam, ∑ m ∈ Icc (-(e.cfg.lmax : ℤ)) e.cfg.lmax,
              ∑ l ∈ Icc (max m.natAbs m'.natAbs) e.cfg.lmax, ‖skyBeam pol s b l m m'‖ *
                (floatErr e.cfg.lmax l m + if W m' m l then 64 / 5 else 0)) := by
  have hM : 0 ≤ absMagnitude pol s b e.cfg.lmax e.cfg.mbeam := by
    unfold absMagnitude
    refine sum_nonneg fun _ _ => sum_nonneg fun _ _ => sum_nonneg fun _ _ => ?_
    unfold absPair; split <;> positivity
  have hg := growth_small pol hl hA.δ0 hA.κ0 hA.φ0 hsm
  have hρ : ∀ south (i : ℕ), RingClose e.cfg ((e.ring south i).map Tod.FP.val)
      (ringOf ovf (o 0) (dft e.cfg.nphi) pol s b e.cfg eps south (Tod.ringTheta e.cfg i))
      (2 * (4 / 10 ^ 7 + 2 * (δ + 6 * κ + φ)) * absMagnitude pol s b e.cfg.lmax e.cfg.mbeam) := by
    intro south i p hp
    refine (rings_of_kernel hovf hE h hA hO hK (hO 0) (dft_backward e.cfg.nphi) south i p hp).trans ?_
    exact mul_le_mul_of_nonneg_right (by linarith) hM
  intro r hr i y z hy hz t0 t1 hph hps
  obtain ⟨W, hW, hacc⟩ := C62_binary64 hovf hE ho5 hl2 hl hm heps h hs hb (hO 0) (dft_backward e.cfg.nphi) hρ hn hR hv r hr i y z hy hz t0 t1 hph hps
  refine ⟨W, hW, hacc.trans (le_of_eq ?_)⟩
  ring

/-! ## Witness -/

/-- Libraries that return correctly rounded results. -/
noncomputable def roundedKern (ovf : Res ℤ) (c : Tod.Cfg) (eps : ℝ) : FKern where
  rs := Double.sgl
  rb := Double.dbl
  gen := fun mb m it => ((firstDeg ovf c.lmax [Tod.ringTheta c it] eps mb m 0 : ℕ),
    (List.range (c.lmax + 1)).map (fun l => Double.dbl (wignerD l mb m (genAngle (Tod.ringTheta c it)))))
  cs := (csTab c.lmax).map Double.dbl
  sn := (snTab c.lmax).map Double.dbl
  cs0 := (cs0Tab c.lmax).map Double.dbl
  sn0 := (sn0Tab c.lmax).map Double.dbl
  fft := fun xs => (dft c.nphi xs).map (fun z => ⟨Double.dbl z.re, Double.dbl z.im⟩)

theorem getD_map_range {α : Type} (g : ℕ → α) {n i : ℕ} (h : i < n) (d : α) : ((List.range n).map g).getD i d = g i := by
  simp [List.getD, h]

theorem dbl_unit {x : ℝ} (h : |x| ≤ 1) : |Double.dbl x - x| ≤ 1 / 2 ^ 53 :=
  (Double.dbl_rel x).trans (div_le_div_of_nonneg_right h (by positivity))

theorem rounded_accurate {ovf : Res ℤ} {v : ℤ} (hovf : ovf = ok v) {pol : Bool} {s b : Exps} {c : Tod.Cfg}
    (h : KernelOK pol s b c.lmax c.npsi) (eps : ℝ) :
    Accurate (roundedKern ovf c eps) ovf c eps (1 / 2 ^ 24) (1 / 2 ^ 53) (1 / 2 ^ 53) (1 / 2 ^ 53) (1 / 2 ^ 53) := by
  have hn : c.nphi = 2 * c.lmax + 1 := rfl
  refine ⟨by positivity, by positivity, by positivity, by positivity, by positivity, fun x => ?_, fun x => ?_, fun mb m it hmb hm => ?_,
    fun mb m it _ _ => ?_, fun mb m it l hmb hm hl hl' => ?_, ⟨?_, ?_, ?_, ?_, fun xs hx => ?_⟩, fun i hi => ?_, fun i hi => ?_,
    fun i hi => ?_, fun i hi => ?_, fun xs hx k hk => ?_⟩
  · have := Double.sgl_rel x
    rw [div_eq_mul_one_div, mul_comm] at this; exact this
  · have := Double.dbl_rel x
    rw [div_eq_mul_one_div, mul_comm] at this; exact this
  · simp only [roundedKern, kfirst]
    push_cast; rfl
  · simp [roundedKern]
  · simp only [roundedKern]
    rw [getD_map_range _ (by omega)]
    have K := kfirst_ok hovf h.pos h.lt h.npsi_le [Tod.ringTheta c it] eps
    obtain ⟨l1, l2⟩ := K.lo m mb 0 hm hmb (by simp)
    refine dbl_unit (abs_wignerD_le_one l ?_ ?_ _)
    · rw [abs_of_nonneg (by omega)]; omega
    · exact natAbs_abs_le (by omega)
  · simp [roundedKern, csTab]
  · simp [roundedKern, snTab]
  · simp [roundedKern, cs0Tab]
  · simp [roundedKern, sn0Tab]
  · simp only [roundedKern, List.length_map]
    exact ((dft_backward c.nphi) xs hx).1
  · simp only [roundedKern, csTab, List.map_map]
    rw [getD_map_range _ (by omega)]
    exact dbl_unit (Real.abs_cos_le_one _)
  · simp only [roundedKern, snTab, List.map_map]
    rw [getD_map_range _ (by omega)]
    exact dbl_unit (Real.abs_sin_le_one _)
  · simp only [roundedKern, cs0Tab, List.map_map]
    rw [getD_map_range _ (by omega)]
    exact dbl_unit (Real.abs_cos_le_one _)
  · simp only [roundedKern, sn0Tab, List.map_map]
    rw [getD_map_range _ (by omega)]
    exact dbl_unit (Real.abs_sin_le_one _)
  · obtain ⟨d1, d2⟩ := dft_backward c.nphi xs hx
    have hv := d2 k hk
    simp only [roundedKern]
    rw [← hv]
    have : ((dft c.nphi xs).map (fun z => (⟨Double.dbl z.re, Double.dbl z.im⟩ : ℂ))).getD k 0 =
        (fun z : ℂ => (⟨Double.dbl z.re, Double.dbl z.im⟩ : ℂ)) ((dft c.nphi xs).getD k 0) := by
      simp [List.getD, List.getElem?_eq_getElem (by rw [d1]; exact hk : k < (dft c.nphi xs).length)]
    rw [this]
    set z := (dft c.nphi xs).getD k 0
    have hz : ‖(⟨Double.dbl z.re, Double.dbl z.im⟩ : ℂ) - z‖ ≤ 1 / 2 ^ 53 * ‖z‖ := by
      refine norm_le_of_parts (by positivity) ?_ ?_
      · have := Double.dbl_rel z.re
        rw [div_eq_mul_one_div, mul_comm] at this; simpa using this
      · have := Double.dbl_rel z.im
        rw [div_eq_mul_one_div, mul_comm] at this; simpa using this
    refine hz.trans (mul_le_mul_of_nonneg_left ?_ (by positivity))
    rw [hv]
    refine (norm_sum_le _ _).trans (sum_le_sum fun j _ => ?_)
    rw [norm_mul, show 2 * Real.pi * Complex.I * j * k / c.nphi = ((2 * Real.pi * j * k / c.nphi : ℝ) : ℂ) * Complex.I by push_cast; ring,
        Complex.norm_exp_ofReal_mul_I, mul_one]

/-- A job with the kernel in floating point: `lmax = 2`, axisymmetric beam, default order. -/
noncomputable def zEnv : Tod.Env (Tod.FP Double.dbl) :=
  { Tod.dblEnv with
    cfg := ⟨2, 0, 5⟩
    kern := fun _ mine => do
      let k ← kernelRingsR (roundedKern (ok 0) ⟨2, 0, 5⟩ (1 / 10 ^ 30)) { wOrders with B1 := [0], B2 := [0] } false xExps xExps ⟨2, 0, 5⟩ mine
      ok (k.1.map (List.map (fun x => ⟨x⟩)), k.2.map (List.map (fun x => ⟨x⟩)))
    ring := fun south i => (ringV (roundedKern (ok 0) ⟨2, 0, 5⟩ (1 / 10 ^ 30)) false xExps xExps ⟨2, 0, 5⟩ south i).map (fun x => ⟨x⟩) }

theorem zAccurate : Accurate (roundedKern (ok 0) ⟨2, 0, 5⟩ (1 / 10 ^ 30)) (ok 0) ⟨2, 0, 5⟩ (1 / 10 ^ 30) (1 / 2 ^ 24) (1 / 2 ^ 53) (1 / 2 ^ 53)
    (1 / 2 ^ 53) (1 / 2 ^ 53) := rounded_accurate (c := ⟨2, 0, 5⟩) rfl xKernelOK _

theorem zEnv_ok : Tod.EnvOKF zEnv where
  verb := Tod.dblEnv_ok.verb
  sort := Tod.dblEnv_ok.sort
  sched := Tod.dblEnv_ok.sched
  nan := Tod.dblEnv_ok.nan
  ring_len := fun h i => by
    show List.length (List.map _ _) = _
    rw [List.length_map]
    exact (pack_spec _ _ _ _).1
  kern := fun _ mine => by
    show (kernelRingsR _ _ _ _ _ _ mine).bind _ = _
    rw [kernelRingsR_ok (c := ⟨2, 0, 5⟩) xKernelOK (genShape (c := ⟨2, 0, 5⟩) rfl xKernelOK zAccurate) zAccurate.shape xOrders_ok mine]
    simp only [Res.bind, List.map_map, zEnv]
    rfl

theorem zRuns : RunsKernel zEnv (roundedKern (ok 0) ⟨2, 0, 5⟩ (1 / 10 ^ 30)) (fun _ => { wOrders with B1 := [0], B2 := [0] }) false xExps xExps :=
  fun _ _ => rfl

/-- All hypotheses of `C64_signal` (and of `C64_rings`) hold together, and the job returns. -/
example : ∃ v, Spmd.Returns 1 (Tod.job zEnv 1 Tod.dblRows) v ∧ ∃ z, (v 0)[0]? = some z ∧ ∃ W : ℤ → ℤ → ℕ → Bool,
    ‖(z.sig.val : ℂ) - (2 : ℝ) * fullConv false xExps xExps 2 0 0 1 2‖ ≤
      2 * (4 / 10 ^ 7 * magnitude false xExps xExps 2 0 +
            (2624 / 10 ^ 7 + 1312 * (1 / 2 ^ 53 + 6 * (1 / 2 ^ 53) + 1 / 2 ^ 53)) * absMagnitude false xExps xExps 2 0 +
            ∑ m' ∈ Icc (-((0 : ℕ) : ℤ)) (0 : ℕ), ∑ m ∈ Icc (-((2 : ℕ) : ℤ)) (2 : ℕ),
              ∑ l ∈ Icc (max m.natAbs m'.natAbs) 2, ‖skyBeam false xExps xExps l m m'‖ *
                (floatErr 2 l m + if W m' m l then 64 / 5 else 0)) := by
  have hV := Tod.valid_float Double.rounding_dbl zEnv_ok (by simp [zEnv, Tod.Cfg.nphi]) (by simp [zEnv, Tod.Cfg.nphi]) (n := 1) le_rfl Tod.dblRows
    (by simp [Tod.samples, Tod.dblRows])
  have hD : Tod.Distributed zEnv 1 Tod.dblRows [Tod.Arith.ofInt 0] := by
    refine ⟨fun r _ y hy => ?_, fun _ => [1, 0, 0, 0], fun r _ => Tod.dblRows_hits r, rfl⟩
    simp only [Tod.dblRows, List.mem_singleton] at hy
    subst hy
    rw [Tod.FP.lt_false, Tod.FP.lt_false]
    refine ⟨?_, Double.rounding_dbl.nonneg Real.pi_pos.le⟩
    rw [Tod.FP.ofInt_val, Int.cast_zero, Double.rounding_dbl.zero]
  obtain ⟨v, hv⟩ := Tod.C06_terminates_if_all_active_partial hV hD (fun r _ => Or.inl (by simp [Tod.dblRows]))
  have hl : (v 0).length = 1 := by
    rw [(Tod.C01_rows_in_place hV hv 0 (by norm_num)).1]; rfl
  obtain ⟨z, hz⟩ : ∃ z, (v 0)[0]? = some z := ⟨_, List.getElem?_eq_getElem (by omega)⟩
  have hc : Tod.calFactor zEnv = 2 := by simp [Tod.calFactor, zEnv, Tod.dblEnv]
  obtain ⟨W, _, this⟩ := C64_signal (e := zEnv) (ovf := ok 0) rfl zEnv_ok rfl (by simp [zEnv]) (by simp [zEnv]) (by simp [zEnv]) (by simp [zEnv, Tod.dblEnv])
    xKernelOK xReal xReal zAccurate (by norm_num) (fun _ => xOrders_ok) zRuns le_rfl
    (by simp [Tod.samples, Tod.dblRows]) hv 0 (by norm_num) 0 _ z rfl hz le_rfl (Double.rounding_dbl.nonneg Real.pi_pos.le) (by norm_num) (by norm_num)
  rw [hc] at this
  exact ⟨v, hv, z, hz, W, this⟩

end Verif.Num
