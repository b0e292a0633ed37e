import Verif.Fft.RMain

/-!
# The signal with the library's own transform and tables (C65)
-/

namespace Verif.Num
open Verif Res Finset Fft

/-! ## model of the tables -/

/-- `arg = -halfpi * msky`, src/conviqt_math.cpp:783 (1043), `msky = ii - lmax`. -/
noncomputable def argA (a : FA) (halfpi : ℝ) (lmax ii : ℕ) : ℝ := a.rb (-halfpi * ((ii : ℝ) - lmax))

/-- `arg = ii * lmaxinv`, `lmaxinv = double(2*pi*lmax)/double(2*lmax+1)`, src/conviqt_math.cpp:780, 787 (1040, 1047). -/
noncomputable def argB (a : FA) (lmax ii : ℕ) : ℝ := a.rb (ii * a.rb (a.rb (a.rb (2 * a.pi) * lmax) / (2 * lmax + 1)))

/-- A kernel whose arithmetic, libm, tables (src/conviqt_math.cpp:780-790, 1040-1050) and transform (:1200, :1229) are those of `a`: `backward` on a plan for
`nphi` (`cost`: the comparison of the cost estimates). -/
structure LibKern (f : FKern) (a : FA) (cost : ℕ → ℕ → Bool) (halfpi : ℝ) (c : Tod.Cfg) : Prop where
  rb : f.rb = a.rb
  cs : f.cs = (List.range c.nphi).map fun ii => a.cosF (argA a halfpi c.lmax ii)
  sn : f.sn = (List.range c.nphi).map fun ii => a.sinF (argA a halfpi c.lmax ii)
  cs0 : f.cs0 = (List.range c.nphi).map fun ii => a.cosF (argB a c.lmax ii)
  sn0 : f.sn0 = (List.range c.nphi).map fun ii => a.sinF (argB a c.lmax ii)
  fft : ∀ x : List ℂ, x.length = c.nphi → ∃ g p, makeComplexPlanR a cost c.nphi g = ok p ∧ p.runsR a [(true, x)] = ok [f.fft x]

/-- Accuracy of the generator of the d-functions alone: the corresponding fields of `Accurate`. -/
structure GenAccurate (f : FKern) (ovf : Res ℤ) (c : Tod.Cfg) (eps us δ : ℝ) : Prop where
  us0 : 0 ≤ us
  δ0 : 0 ≤ δ
  single : ∀ x, |f.rs x - x| ≤ us * |x|
  first : ∀ mb m it : ℕ, mb < c.npsi → m ≤ c.lmax →
    max (f.gen mb m it).1 (f.gen mb (-m) it).1 = kfirst ovf c.lmax [Tod.ringTheta c it] eps mb m 0
  len : ∀ (mb : ℕ) (m : ℤ) (it : ℕ), mb < c.npsi → |m| ≤ c.lmax → (f.gen mb m it).2.length = c.lmax + 1
  elem : ∀ (mb : ℕ) (m : ℤ) (it l : ℕ), mb < c.npsi → |m| ≤ c.lmax → kfirst ovf c.lmax [Tod.ringTheta c it] eps mb m.natAbs 0 ≤ l →
    l ≤ c.lmax → |(f.gen mb m it).2.getD l 0 - wignerD l mb m (genAngle (Tod.ringTheta c it))| ≤ δ

/-- Accuracy of the tables. -/
noncomputable def tabK (u κ : ℝ) (lmax : ℕ) : ℝ := κ + 7 * lmax * ((1 + u) ^ 5 - 1)

/-! ## accuracy of the tables -/

section
variable {a : FA} {u κ : ℝ} (A : FAcc a u κ)
include A

theorem argA_close {halfpi : ℝ} (hh : |halfpi - Real.pi / 2| ≤ u * (Real.pi / 2)) {lmax ii : ℕ} (hi : ii ≤ 2 * lmax) :
    |argA a halfpi lmax ii - -(Real.pi / 2) * ((ii : ℝ) - lmax)| ≤ 7 * lmax * ((1 + u) ^ 5 - 1) := by
  have t0 : Near (1 + u) halfpi (Real.pi / 2) (Real.pi / 2) := by
    refine ⟨by linarith [A.u0], ?_, by rw [Real.norm_eq_abs, abs_of_nonneg (by positivity)]⟩
    rw [Real.norm_eq_abs]; linarith
  have hm : |(ii : ℝ) - lmax| ≤ lmax := by
    have : (ii : ℝ) ≤ 2 * lmax := by exact_mod_cast hi
    rw [abs_le]; constructor <;> linarith [(Nat.cast_nonneg ii : (0 : ℝ) ≤ ii)]
  have t1 := t0.neg.mul (Near.refl (y := (ii : ℝ) - lmax) (Q := lmax) hm)
  have t2 := rb_near A t1
  have h := t2.err
  rw [Real.norm_eq_abs] at h
  refine h.trans ?_
  have h5 : (1 + u) * 1 * (1 + u) ≤ (1 + u) ^ 5 := by
    rw [show (1 + u) * 1 * (1 + u) = (1 + u) ^ 2 by ring]
    exact pow_le_pow_right₀ (by linarith [A.u0]) (by norm_num)
  have h1 : 0 ≤ (1 + u) * 1 * (1 + u) - 1 := by nlinarith [A.u0]
  rw [mul_comm]
  exact mul_le_mul (mul_le_mul_of_nonneg_right (by linarith [Real.pi_lt_d2]) (by positivity)) (by linarith) h1 (by positivity)

theorem argB_close {lmax ii : ℕ} (hi : ii ≤ 2 * lmax) :
    |argB a lmax ii - ii * (2 * Real.pi * lmax / (2 * lmax + 1))| ≤ 7 * lmax * ((1 + u) ^ 5 - 1) := by
  have t0 : Near (1 + u) a.pi Real.pi Real.pi := by
    refine ⟨by linarith [A.u0], ?_, by rw [Real.norm_eq_abs, abs_of_nonneg (by positivity)]⟩
    rw [Real.norm_eq_abs]; linarith [A.pi]
  have t1 := rb_near A (scale_near A t0 (b := 2) (by norm_num))
  have t2 := rb_near A (scale_near A t1 (b := (lmax : ℝ)) (by positivity))
  have t3 := rb_near A (scale_near A t2 (b := 1 / (2 * (lmax : ℝ) + 1)) (by positivity))
  have t4 := rb_near A (scale_near A t3 (b := (ii : ℝ)) (by positivity))
  rw [show (lmax : ℝ) * a.rb (2 * a.pi) = a.rb (2 * a.pi) * lmax by ring,
    show 1 / (2 * (lmax : ℝ) + 1) * a.rb (a.rb (2 * a.pi) * lmax) = a.rb (a.rb (2 * a.pi) * lmax) / (2 * lmax + 1) by ring,
    show (ii : ℝ) * (1 / (2 * (lmax : ℝ) + 1) * (lmax * (2 * Real.pi))) = ii * (2 * Real.pi * lmax / (2 * lmax + 1)) by ring] at t4
  have h := t4.err
  rw [Real.norm_eq_abs] at h
  refine h.trans ?_
  rw [show (1 + u) * (1 + u) * (1 + u) * (1 + u) * (1 + u) = (1 + u) ^ 5 by ring, mul_comm]
  refine mul_le_mul_of_nonneg_right ?_ (by linarith [one_le_pow4 A.u0 5])
  have hi' : (ii : ℝ) ≤ 2 * lmax + 1 := by
    have : (ii : ℝ) ≤ 2 * lmax := by exact_mod_cast hi
    linarith
  calc (ii : ℝ) * (2 * Real.pi * lmax / (2 * lmax + 1)) ≤ (2 * lmax + 1) * (2 * Real.pi * lmax / (2 * lmax + 1)) :=
        mul_le_mul_of_nonneg_right hi' (by positivity)
    _ = 2 * Real.pi * lmax := by field_simp
    _ ≤ 7 * lmax := mul_le_mul_of_nonneg_right (by linarith [Real.pi_lt_d2]) (by positivity)

theorem cos_tab {x y e : ℝ} (h : |x - y| ≤ e) : |a.cosF x - Real.cos y| ≤ κ + e := by
  have h1 := A.cos x
  have h2 := Real.abs_cos_sub_cos_le x y
  have := abs_sub_le (a.cosF x) (Real.cos x) (Real.cos y)
  linarith

theorem sin_tab {x y e : ℝ} (h : |x - y| ≤ e) : |a.sinF x - Real.sin y| ≤ κ + e := by
  have h1 := A.sin x
  have h2 := Real.abs_sin_sub_sin_le x y
  have := abs_sub_le (a.sinF x) (Real.sin x) (Real.sin y)
  linarith

/-- With the library's transform and tables the accuracy of the kernel depends on the generator only. -/
theorem lib_accurate {f : FKern} {ovf : Res ℤ} {c : Tod.Cfg} {cost : ℕ → ℕ → Bool} {halfpi eps us δ : ℝ}
    (hh : |halfpi - Real.pi / 2| ≤ u * (Real.pi / 2)) (hl : c.lmax ≤ 100000)
    (hG : GenAccurate f ovf c eps us δ) (hL : LibKern f a cost halfpi c) :
    Accurate f ovf c eps us u δ (tabK u κ c.lmax) (fftErr u κ c.nphi) := by
  have hn : c.nphi = 2 * c.lmax + 1 := rfl
  obtain ⟨F, h1, h2⟩ := C65_fft A cost (n := c.nphi) (by omega) (by norm_num; omega)
  have hF : ∀ x : List ℂ, x.length = c.nphi → f.fft x = F true x := by
    intro x hx
    obtain ⟨g, p, hp, hr⟩ := hL.fft x hx
    obtain ⟨p', hp', hr'⟩ := h1 g
    rw [hp] at hp'
    cases hp'
    rw [hr' _ (by simpa using hx)] at hr
    simpa using (Res.ok.inj hr).symm
  have h5 := one_le_pow4 A.u0 5
  have hr1 := A.rho1
  refine ⟨hG.us0, A.u0, hG.δ0, ?_, ?_, hG.single, fun x => by rw [hL.rb]; exact A.rnd x, hG.first, hG.len, hG.elem, ⟨?_, ?_, ?_, ?_, fun x hx => ?_⟩,
    fun i hi => ?_, fun i hi => ?_, fun i hi => ?_, fun i hi => ?_, fun x hx k hk => ?_⟩
  · unfold tabK
    have := mul_nonneg (show (0 : ℝ) ≤ 7 * c.lmax by positivity) (show 0 ≤ (1 + u) ^ 5 - 1 by linarith)
    linarith [A.κ0]
  · exact le_max_of_le_left (by linarith [one_le_pow₀ hr1 (n := c.nphi + 143)])
  · rw [hL.cs]; simp [hn]
  · rw [hL.sn]; simp [hn]
  · rw [hL.cs0]; simp [hn]
  · rw [hL.sn0]; simp [hn]
  · rw [hF x (by omega)]; exact (h2 true x (by omega)).1
  · rw [hL.cs, getD_map_range _ hi]; exact cos_tab A (argA_close A hh (by omega))
  · rw [hL.sn, getD_map_range _ hi]; exact sin_tab A (argA_close A hh (by omega))
  · rw [hL.cs0, getD_map_range _ hi]; exact cos_tab A (argB_close A (by omega))
  · rw [hL.sn0, getD_map_range _ hi]; exact sin_tab A (argB_close A (by omega))
  · rw [hF x hx]
    have := (h2 true x hx).2 k hk
    rw [dftList, Fft.getD_map_range _ _ hk] at this
    simpa using this

end

theorem tabK_small {lmax : ℕ} (hl : lmax ≤ 4000) : tabK (1 / 2 ^ 53) (1 / 2 ^ 52) lmax ≤ 2 / 10 ^ 11 := by
  have h : (lmax : ℝ) ≤ 4000 := by exact_mod_cast hl
  unfold tabK
  have h2 : (0 : ℝ) ≤ (1 + 1 / 2 ^ 53) ^ 5 - 1 := by norm_num
  have := mul_le_mul_of_nonneg_right (show 7 * (lmax : ℝ) ≤ 28000 by linarith) h2
  have h3 : (28000 : ℝ) * ((1 + 1 / 2 ^ 53) ^ 5 - 1) + 1 / 2 ^ 52 ≤ 2 / 10 ^ 11 := by norm_num
  linarith

/-- C65: the signal computed in floating point with the library's own Fourier transform and tables.  Hypotheses as in `C64_signal`, except that
about the transform and the tables only the accuracy of libm and of the stored constants is assumed (`2^-52`; `pi`, `twopi`, `halfpi` correctly
rounded).  The only remaining accuracy parameter is that of the generator of d-functions, `δ`. -/
theorem C65_signal {ovf : Res ℤ} {w : ℤ} (hovf : ovf = ok w) {pol : Bool} {s b : Exps} {e : Tod.Env (Tod.FP Double.dbl)}
    (hE : Tod.EnvOKF e) (ho5 : e.cfg.order = 5) (hl2 : 2 ≤ e.cfg.lmax) (hl : e.cfg.lmax ≤ 4000) (hm : e.cfg.mbeam ≤ 20)
    (heps : 0 ≤ e.eps.val) (h : KernelOK pol s b e.cfg.lmax e.cfg.npsi) (hs : RealField pol e.cfg.lmax s) (hb : RealField pol e.cfg.lmax b)
    {f : FKern} {eps δ halfpi : ℝ} (hG : GenAccurate f ovf e.cfg eps (1 / 2 ^ 24) δ) (hδ : δ ≤ 1 / 200)
    {a : FA} {cost : ℕ → ℕ → Bool} (A : FAcc a (1 / 2 ^ 53) (1 / 2 ^ 52)) (hh : |halfpi - Real.pi / 2| ≤ 1 / 2 ^ 53 * (Real.pi / 2))
    (hL : LibKern f a cost halfpi e.cfg)
    {o : ℕ → Orders} (hO : ∀ r, (o r).OK e.cfg.lmax e.cfg.npsi) (hK : RunsKernel e f o pol s b)
    {n : ℕ} (hn : 1 ≤ n) {R : ℕ → List (Tod.Row (Tod.FP Double.dbl))} (hR : (Tod.samples n R).length ≤ 2 ^ 52)
    {v : ℕ → List (Tod.Row (Tod.FP Double.dbl))} (hv : Spmd.Returns n (Tod.job e n R) v) :
    ∀ r < n, ∀ (i : ℕ) (y z : Tod.Row (Tod.FP Double.dbl)), (R r)[i]? = some y → (v r)[i]? = some z →
      0 ≤ y.theta.val → y.theta.val ≤ Double.dbl Real.pi → |y.phi.val| ≤ 63 / 10 → |y.psi.val| ≤ 63 / 10 →
      ∃ W : ℤ → ℤ → ℕ → Bool,
        (∀ m' m l, W m' m l = true → ∃ (ϑ : ℝ) (t : ℤ),
          |ϑ - (y.theta.val - 2 * Real.pi * t)| ≤ Real.pi / (e.cfg.lmax + 1) * 6 + 2 / 10 ^ 15 ∧
          (|wignerD l m' m ϑ| ≤ tau e.cfg.lmax eps ∨ |wignerD l m' (-m) ϑ| ≤ tau e.cfg.lmax eps)) ∧
        ‖(z.sig.val : ℂ) - Tod.calFactor e * fullConv pol s b e.cfg.lmax e.cfg.mbeam y.theta.val y.phi.val y.psi.val‖ ≤
          Tod.calFactor e * (4 / 10 ^ 7 * magnitude pol s b e.cfg.lmax e.cfg.mbeam +
            (4900 / 10 ^ 7 + 1312 * δ) * absMagnitude pol s b e.cfg.lmax e.cfg.mbeam +
            ∑ m' ∈ Icc (-(e.cfg.mbeam : ℤ)) e.cfg.mbeam, ∑ m ∈ Icc (-(e.cfg.lmax : ℤ)) e.cfg.lmax,
              ∑ l ∈ Icc (max m.natAbs m'.natAbs) e.cfg.lmax, ‖skyBeam pol s b l m m'‖ *
                (floatErr e.cfg.lmax l m + if W m' m l then 64 / 5 else 0)) := by
  have hA := lib_accurate A hh (by omega) hG hL
  have hφ : fftErr (1 / 2 ^ 53) (1 / 2 ^ 52) e.cfg.nphi ≤ 17 / 10 ^ 8 := by
    have hn : e.cfg.nphi = 2 * e.cfg.lmax + 1 := rfl
    have h8 : (e.cfg.nphi : ℝ) ≤ 8001 := by exact_mod_cast (by omega)
    have := fftErr_binary64 (n := e.cfg.nphi) (by omega) (by norm_num; omega)
    linarith
  have hκ := tabK_small hl
  have hM : 0 ≤ absMagnitude pol s b e.cfg.lmax e.cfg.mbeam := by
    unfold absMagnitude
    refine sum_nonneg fun _ _ => sum_nonneg fun _ _ => sum_nonneg fun _ _ => ?_
    unfold absPair; split <;> positivity
  have hc : 0 ≤ Tod.calFactor e := by
    unfold Tod.calFactor
    split
    · exact div_nonneg (by norm_num) (by linarith)
    · norm_num
  intro r hr i y z hy hz t0 t1 hph hps
  obtain ⟨W, hW, hacc⟩ := C64_signal hovf hE ho5 hl2 hl hm heps h hs hb hA (by linarith) hO hK hn hR hv r hr i y z hy hz t0 t1 hph hps
  refine ⟨W, hW, hacc.trans (mul_le_mul_of_nonneg_left ?_ hc)⟩
  have := mul_le_mul_of_nonneg_right (show 2624 / 10 ^ 7 + 1312 * (δ + 6 * tabK (1 / 2 ^ 53) (1 / 2 ^ 52) e.cfg.lmax +
    fftErr (1 / 2 ^ 53) (1 / 2 ^ 52) e.cfg.nphi) ≤ 4900 / 10 ^ 7 + 1312 * δ by linarith) hM
  linarith

/-! ## Witness -/

/-- A generator that returns correctly rounded elements; the library's transform and tables. -/
noncomputable def libKern (ovf : Res ℤ) (c : Tod.Cfg) (eps : ℝ) (cost : ℕ → ℕ → Bool) : FKern :=
  { roundedKern ovf c eps with
    rb := roundedFA.rb
    cs := (List.range c.nphi).map fun ii => roundedFA.cosF (argA roundedFA (Double.dbl (Real.pi / 2)) c.lmax ii)
    sn := (List.range c.nphi).map fun ii => roundedFA.sinF (argA roundedFA (Double.dbl (Real.pi / 2)) c.lmax ii)
    cs0 := (List.range c.nphi).map fun ii => roundedFA.cosF (argB roundedFA c.lmax ii)
    sn0 := (List.range c.nphi).map fun ii => roundedFA.sinF (argB roundedFA c.lmax ii)
    fft := fun x => match makeComplexPlanR roundedFA cost c.nphi 0 with
      | ok p => match p.runsR roundedFA [(true, x)] with
        | ok [y] => y
        | _ => []
      | _ => [] }

theorem halfpi_rounded : |Double.dbl (Real.pi / 2) - Real.pi / 2| ≤ 1 / 2 ^ 53 * (Real.pi / 2) := by
  have := Double.dbl_rel (Real.pi / 2)
  rw [abs_of_nonneg (show (0 : ℝ) ≤ Real.pi / 2 by positivity)] at this
  linarith

theorem libKern_lib (ovf : Res ℤ) (c : Tod.Cfg) (eps : ℝ) (cost : ℕ → ℕ → Bool) (hl : c.lmax ≤ 100000) :
    LibKern (libKern ovf c eps cost) roundedFA cost (Double.dbl (Real.pi / 2)) c := by
  refine ⟨rfl, rfl, rfl, rfl, rfl, fun x hx => ?_⟩
  have hn : c.nphi = 2 * c.lmax + 1 := rfl
  obtain ⟨F, h1, _⟩ := C65_fft roundedFA_acc cost (n := c.nphi) (by omega) (by norm_num; omega)
  obtain ⟨p, hp, hr⟩ := h1 0
  refine ⟨0, p, hp, ?_⟩
  have e := hr [(true, x)] (by simpa using hx)
  simp only [libKern, hp]
  rw [e]
  simp

theorem libKern_gen {ovf : Res ℤ} {v : ℤ} (hovf : ovf = ok v) {pol : Bool} {s b : Exps} {c : Tod.Cfg}
    (h : KernelOK pol s b c.lmax c.npsi) (eps : ℝ) (cost : ℕ → ℕ → Bool) : GenAccurate (libKern ovf c eps cost) ovf c eps (1 / 2 ^ 24) (1 / 2 ^ 53) := by
  have := rounded_accurate hovf h eps
  exact ⟨this.us0, this.δ0, this.single, this.first, this.len, this.elem⟩

/-- A job with the kernel in floating point and the library's transform: `lmax = 2`, axisymmetric beam, default order. -/
noncomputable def lKern : FKern := libKern (ok 0) ⟨2, 0, 5⟩ (1 / 10 ^ 30) fun _ _ => true

theorem lAcc : Accurate lKern (ok 0) ⟨2, 0, 5⟩ (1 / 10 ^ 30) (1 / 2 ^ 24) (1 / 2 ^ 53) (1 / 2 ^ 53)
    (tabK (1 / 2 ^ 53) (1 / 2 ^ 52) 2) (fftErr (1 / 2 ^ 53) (1 / 2 ^ 52) 5) :=
  lib_accurate (c := ⟨2, 0, 5⟩) roundedFA_acc halfpi_rounded (by norm_num) (libKern_gen (c := ⟨2, 0, 5⟩) rfl xKernelOK _ _)
    (libKern_lib _ ⟨2, 0, 5⟩ _ _ (by norm_num))

noncomputable def lEnv : Tod.Env (Tod.FP Double.dbl) :=
  { Tod.dblEnv with
    cfg := ⟨2, 0, 5⟩
    kern := fun _ mine => do
      let k ← kernelRingsR lKern { wOrders with B1 := [0], B2 := [0] } false xExps xExps ⟨2, 0, 5⟩ mine
      ok (k.1.map (List.map (fun x => ⟨x⟩)), k.2.map (List.map (fun x => ⟨x⟩)))
    ring := fun south i => (ringV lKern false xExps xExps ⟨2, 0, 5⟩ south i).map (fun x => ⟨x⟩) }

theorem lEnv_ok : Tod.EnvOKF lEnv where
  verb := Tod.dblEnv_ok.verb
  sort := Tod.dblEnv_ok.sort
  sched := Tod.dblEnv_ok.sched
  nan := Tod.dblEnv_ok.nan
  ring_len := fun h i => by
    show List.length (List.map _ _) = _
    rw [List.length_map]
    exact (pack_spec _ _ _ _).1
  kern := fun _ mine => by
    show (kernelRingsR _ _ _ _ _ _ mine).bind _ = _
    rw [kernelRingsR_ok (c := ⟨2, 0, 5⟩) xKernelOK (genShape (c := ⟨2, 0, 5⟩) rfl xKernelOK lAcc) lAcc.shape xOrders_ok mine]
    simp only [Res.bind, List.map_map, lEnv]
    rfl

theorem lRuns : RunsKernel lEnv lKern (fun _ => { wOrders with B1 := [0], B2 := [0] }) false xExps xExps :=
  fun _ _ => rfl

/-- All hypotheses of `C65_signal` hold together, and the job returns. -/
example : ∃ v, Spmd.Returns 1 (Tod.job lEnv 1 Tod.dblRows) v ∧ ∃ z, (v 0)[0]? = some z ∧ ∃ W : ℤ → ℤ → ℕ → Bool,
    ‖(z.sig.val : ℂ) - (2 : ℝ) * fullConv false xExps xExps 2 0 0 1 2‖ ≤
      2 * (4 / 10 ^ 7 * magnitude false xExps xExps 2 0 +
            (4900 / 10 ^ 7 + 1312 * (1 / 2 ^ 53)) * absMagnitude false xExps xExps 2 0 +
            ∑ m' ∈ Icc (-((0 : ℕ) : ℤ)) (0 : ℕ), ∑ m ∈ Icc (-((2 : ℕ) : ℤ)) (2 : ℕ),
              ∑ l ∈ Icc (max m.natAbs m'.natAbs) 2, ‖skyBeam false xExps xExps l m m'‖ *
                (floatErr 2 l m + if W m' m l then 64 / 5 else 0)) := by
  have hV := Tod.valid_float Double.rounding_dbl lEnv_ok (by simp [lEnv, Tod.Cfg.nphi]) (by simp [lEnv, Tod.Cfg.nphi]) (n := 1) le_rfl Tod.dblRows
    (by simp [Tod.samples, Tod.dblRows])
  have hD : Tod.Distributed lEnv 1 Tod.dblRows [Tod.Arith.ofInt 0] := by
    refine ⟨fun r _ y hy => ?_, fun _ => [1, 0, 0, 0], fun r _ => Tod.dblRows_hits r, rfl⟩
    simp only [Tod.dblRows, List.mem_singleton] at hy
    subst hy
    rw [Tod.FP.lt_false, Tod.FP.lt_false]
    refine ⟨?_, Double.rounding_dbl.nonneg Real.pi_pos.le⟩
    rw [Tod.FP.ofInt_val, Int.cast_zero, Double.rounding_dbl.zero]
  obtain ⟨v, hv⟩ := Tod.C06_terminates_if_all_active_partial hV hD (fun r _ => Or.inl (by simp [Tod.dblRows]))
  have hl : (v 0).length = 1 := by
    rw [(Tod.C01_rows_in_place hV hv 0 (by norm_num)).1]; rfl
  obtain ⟨z, hz⟩ : ∃ z, (v 0)[0]? = some z := ⟨_, List.getElem?_eq_getElem (by omega)⟩
  have hc : Tod.calFactor lEnv = 2 := by simp [Tod.calFactor, lEnv, Tod.dblEnv]
  obtain ⟨W, _, this⟩ := C65_signal (e := lEnv) (ovf := ok 0) rfl lEnv_ok rfl (by simp [lEnv]) (by simp [lEnv]) (by simp [lEnv]) (by simp [lEnv, Tod.dblEnv])
    xKernelOK xReal xReal (libKern_gen (c := ⟨2, 0, 5⟩) rfl xKernelOK _ _) (by norm_num) roundedFA_acc halfpi_rounded
    (libKern_lib _ ⟨2, 0, 5⟩ _ _ (by norm_num)) (fun _ => xOrders_ok) lRuns le_rfl
    (by simp [Tod.samples, Tod.dblRows]) hv 0 (by norm_num) 0 _ z rfl hz le_rfl (Double.rounding_dbl.nonneg Real.pi_pos.le) (by norm_num) (by norm_num)
  rw [hc] at this
  exact ⟨v, hv, z, hz, W, this⟩

end Verif.Num
