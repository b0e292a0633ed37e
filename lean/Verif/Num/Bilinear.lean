import Verif.Num.Accuracy
import Verif.Tod.Witness

/-!
# C20 for the signal of the samples

Linearity of the kernel (`C20_linear_sky`, `C20_linear_beam`, `C20_polarised_eq_intensity`) carried through synthesis,
distribution and interpolation to the signal every sample receives in a job that returns.
-/

namespace Verif.Num
open Verif Res Finset

/-- The products of sky and beam coefficients combine: `Z = p X + q Y`. -/
def CombP (lmax npsi : ℕ) (p q : ℝ) (X Y Z : ℕ → ℤ → ℤ → ℂ) : Prop :=
  ∀ (l : ℕ) (m m' : ℤ), l ≤ lmax → m.natAbs ≤ l → m'.natAbs ≤ l → m'.natAbs < npsi → Z l m m' = p * X l m m' + q * Y l m m'

theorem ringVal_comb {ovf : Res ℤ} {v : ℤ} (hovf : ovf = ok v) {lmax npsi : ℕ} (h0 : 0 < lmax) (hL : lmax < 46341)
    (hn : npsi ≤ lmax + 1) {p q : ℝ} {polx poly polz : Bool} {sx sy sz bx by' bz : Exps}
    (hc : CombP lmax npsi p q (skyBeam polx sx bx) (skyBeam poly sy by') (skyBeam polz sz bz)) (eps θ ϑ : ℝ) (i : ℕ) {k : ℕ}
    (hk : k < npsi) :
    ringVal ovf polz sz bz lmax eps θ ϑ i k =
      p * ringVal ovf polx sx bx lmax eps θ ϑ i k + q * ringVal ovf poly sy by' lmax eps θ ϑ i k := by
  have hF := kfirst_ok hovf h0 hL hn [θ] eps
  unfold ringVal
  have key : ∀ m ∈ Icc (-(lmax : ℤ)) lmax, (∑ l ∈ Ico (kfirst ovf lmax [θ] eps k m.natAbs 0) (lmax + 1), kterm polz sz bz l m k ϑ) =
      p * (∑ l ∈ Ico (kfirst ovf lmax [θ] eps k m.natAbs 0) (lmax + 1), kterm polx sx bx l m k ϑ) +
      q * (∑ l ∈ Ico (kfirst ovf lmax [θ] eps k m.natAbs 0) (lmax + 1), kterm poly sy by' l m k ϑ) := by
    intro m hm
    rw [mem_Icc] at hm
    obtain ⟨l1, l2⟩ := hF.lo m k 0 (abs_le.mpr hm) hk (by simp)
    rw [mul_sum, mul_sum, ← sum_add_distrib]
    refine sum_congr rfl fun l hl => ?_
    rw [mem_Ico] at hl
    unfold kterm
    rw [hc l m k (by omega) (by omega) (by simp; omega) (by simpa using hk)]
    ring
  rw [sum_congr rfl (fun m hm => by rw [key m hm])]
  simp only [add_mul, sum_add_distrib, mul_add, mul_assoc]
  rw [← mul_sum, ← mul_sum]
  ring

/-- The value of a sample combines as the products do. -/
theorem sample_comb {ovf : Res ℤ} {v : ℤ} (hovf : ovf = ok v) {p q : ℝ} {polx poly polz : Bool} {sx sy sz bx by' bz : Exps}
    {c : Tod.Cfg} {ex ey ez : Tod.Env ℝ} (cx : ex.cfg = c) (cy : ey.cfg = c) (cz : ez.cfg = c) (hord : c.order ≤ c.nphi)
    (kx : KernelOK polx sx bx c.lmax c.npsi) (ky : KernelOK poly sy by' c.lmax c.npsi) (kz : KernelOK polz sz bz c.lmax c.npsi)
    {ox oy oz : Orders} (hox : ox.OK c.lmax c.npsi) (hoy : oy.OK c.lmax c.npsi) (hoz : oz.OK c.lmax c.npsi)
    {fx fy fz : List ℂ → List ℂ} (hfx : IsBackward fx c.nphi) (hfy : IsBackward fy c.nphi) (hfz : IsBackward fz c.nphi) {eps : ℝ}
    (rx : RingsFrom ex ovf ox fx polx sx bx eps) (ry : RingsFrom ey ovf oy fy poly sy by' eps)
    (rz : RingsFrom ez ovf oz fz polz sz bz eps)
    (hc : CombP c.lmax c.npsi p q (skyBeam polx sx bx) (skyBeam poly sy by') (skyBeam polz sz bz))
    {theta : ℝ} (t0 : 0 ≤ theta) (t1 : theta ≤ Real.pi) (phi psi : ℝ) :
    ∃ x y z, Tod.sampleSpec ex phi theta psi = ok x ∧ Tod.sampleSpec ey phi theta psi = ok y ∧
      Tod.sampleSpec ez phi theta psi = ok z ∧ z = p * x + q * y := by
  have lx : ∀ h i, (ex.ring h i).length = c.bufsize := fun h i => by
    rw [rx h i, cx]; exact (ringOf_spec hovf kx hox hfx eps h _).1
  have ly : ∀ h i, (ey.ring h i).length = c.bufsize := fun h i => by
    rw [ry h i, cy]; exact (ringOf_spec hovf ky hoy hfy eps h _).1
  have lz : ∀ h i, (ez.ring h i).length = c.bufsize := fun h i => by
    rw [rz h i, cz]; exact (ringOf_spec hovf kz hoz hfz eps h _).1
  obtain ⟨it, ip, x, f, -, -, -, -, -, -, -, hs⟩ := sample_shared c hord t0 t1 phi psi
  refine ⟨_, _, _, hs ex cx lx, hs ey cy ly, hs ez cz lz, ?_⟩
  have ring : ∀ south i j, Tod.psiSum c (ez.ring south i) psi (j % (c.nphi : ℤ)).toNat =
      p * Tod.psiSum c (ex.ring south i) psi (j % (c.nphi : ℤ)).toNat + q * Tod.psiSum c (ey.ring south i) psi (j % (c.nphi : ℤ)).toNat := by
    intro south i j
    have hn : (0 : ℤ) < c.nphi := by unfold Tod.Cfg.nphi; positivity
    have hp : (j % (c.nphi : ℤ)).toNat < c.nphi := by
      have := Int.emod_lt_of_pos j hn
      have := Int.emod_nonneg j hn.ne'
      omega
    rw [rx south i, ry south i, rz south i, cx, cy, cz]
    unfold Tod.psiSum
    rw [mul_sum, mul_sum, ← sum_add_distrib]
    refine sum_congr rfl fun k hk => ?_
    rw [mem_range] at hk
    rw [((ringOf_spec hovf kx hox hfx eps south _).2 _ k hp hk).1, ((ringOf_spec hovf kx hox hfx eps south _).2 _ k hp hk).2,
      ((ringOf_spec hovf ky hoy hfy eps south _).2 _ k hp hk).1, ((ringOf_spec hovf ky hoy hfy eps south _).2 _ k hp hk).2,
      ((ringOf_spec hovf kz hoz hfz eps south _).2 _ k hp hk).1, ((ringOf_spec hovf kz hoz hfz eps south _).2 _ k hp hk).2,
      ringVal_comb hovf kx.pos kx.lt kx.npsi_le hc eps _ _ _ hk]
    simp only [Complex.add_re, Complex.add_im, Complex.re_ofReal_mul, Complex.im_ofReal_mul]
    ring
  simp only [mul_sum, ← sum_add_distrib]
  refine sum_congr rfl fun k _ => sum_congr rfl fun j _ => ?_
  rw [ring]
  ring

/-- Everything a job needs to deliver the values of the numerical specification, for one choice of expansions. -/
structure Setup (e : Tod.Env ℝ) (ovf : Res ℤ) (pol : Bool) (s b : Exps) (eps : ℝ) : Prop where
  ok : Tod.EnvOK e
  bins : 0 < e.nbin
  order : e.cfg.order ≤ e.cfg.nphi
  kern : KernelOK pol s b e.cfg.lmax e.cfg.npsi
  rings : ∃ (o : Orders) (fft : List ℂ → List ℂ), o.OK e.cfg.lmax e.cfg.npsi ∧ IsBackward fft e.cfg.nphi ∧
    RingsFrom e ovf o fft pol s b eps

/-- The calibration a job applies. -/
noncomputable def calibFactor (e : Tod.Env ℝ) : ℝ := if e.calibrate && !e.normalized then 2 / (1 + e.eps) else 1

theorem calibSpec_factor (e : Tod.Env ℝ) (x : ℝ) : Tod.calibSpec e x = x * calibFactor e := by
  unfold Tod.calibSpec calibFactor
  simp only [Tod.RealArith.mul_def, Tod.RealArith.div_def, Tod.RealArith.ofInt_def, Tod.RealArith.add_def]
  split <;> push_cast <;> ring

/-- Three returning jobs on the same pointing whose products of coefficients combine. -/
theorem job_comb {ovf : Res ℤ} {v : ℤ} (hovf : ovf = ok v) {p q eps : ℝ} {polx poly polz : Bool} {sx sy sz bx by' bz : Exps}
    {ex ey ez : Tod.Env ℝ} (hx : Setup ex ovf polx sx bx eps) (hy : Setup ey ovf poly sy by' eps) (hz : Setup ez ovf polz sz bz eps)
    (cx : ex.cfg = ez.cfg) (cy : ey.cfg = ez.cfg) (fx : calibFactor ex = calibFactor ez) (fy : calibFactor ey = calibFactor ez)
    (hc : CombP ez.cfg.lmax ez.cfg.npsi p q (skyBeam polx sx bx) (skyBeam poly sy by') (skyBeam polz sz bz))
    {n : ℕ} (hn : 1 ≤ n) {R outx outy outz : ℕ → List (Tod.Row ℝ)} (jx : Spmd.Returns n (Tod.job ex n R) outx)
    (jy : Spmd.Returns n (Tod.job ey n R) outy) (jz : Spmd.Returns n (Tod.job ez n R) outz) {r : ℕ} (hr : r < n) {i : ℕ}
    (hi : i < (R r).length) :
    ∃ a b c, (outx r)[i]? = some a ∧ (outy r)[i]? = some b ∧ (outz r)[i]? = some c ∧ c.sig = p * a.sig + q * b.sig := by
  obtain ⟨ox, gx, hox, hgx, rx⟩ := hx.rings
  obtain ⟨oy, gy, hoy, hgy, ry⟩ := hy.rings
  obtain ⟨oz, gz, hoz, hgz, rz⟩ := hz.rings
  have kx := hx.kern; rw [cx] at kx hox hgx
  have ky := hy.kern; rw [cy] at ky hoy hgy
  have hleg := ((Tod.C59_outcome (R := R) hz.ok hz.order hn hz.bins).2.2.2.mp ⟨outz, jz⟩).1 r hr (R r)[i] (List.getElem_mem hi)
  obtain ⟨x, y, z, e1, e2, e3, e4⟩ := sample_comb hovf (c := ez.cfg) cx cy rfl hz.order kx ky hz.kern hox hoy hoz hgx hgy hgz rx ry rz hc
    hleg.1 hleg.2.1 (R r)[i].phi (R r)[i].psi
  have row : ∀ {e : Tod.Env ℝ} {out : ℕ → List (Tod.Row ℝ)} {x : ℝ}, Tod.EnvOK e → e.cfg.order ≤ e.cfg.nphi →
      Spmd.Returns n (Tod.job e n R) out → Tod.sampleSpec e (R r)[i].phi (R r)[i].theta (R r)[i].psi = ok x →
      (out r)[i]? = some ⟨(R r)[i].phi, (R r)[i].theta, (R r)[i].psi, Tod.calibSpec e x, ((Tod.samples r R).length + i : ℕ)⟩ := by
    intro e out x he ho hret hx
    rw [Tod.returns_eq (Tod.valid_real he ho hn R) hret r hr]
    simp [Tod.resultRows, hi, Tod.val_of_spec hx, Tod.samples_length, Tod.total]
  refine ⟨_, _, _, row hx.ok hx.order jx e1, row hy.ok hy.order jy e2, row hz.ok hz.order jz e3, ?_⟩
  show Tod.calibSpec ez z = p * Tod.calibSpec ex x + q * Tod.calibSpec ey y
  rw [calibSpec_factor, calibSpec_factor, calibSpec_factor, fx, fy, e4]
  ring

/-! ## Property theorems -/

/-- C20 for the signal: three jobs on the same pointing, with the same beam and calibration, whose skies combine as
`z = p x + q y`: whenever the three return, every sample's signals combine in the same way. -/
theorem C20_signal_linear_sky {ovf : Res ℤ} {v : ℤ} (hovf : ovf = ok v) {p q eps : ℝ} {pol : Bool} {x y z b : Exps}
    {ex ey ez : Tod.Env ℝ} (hx : Setup ex ovf pol x b eps) (hy : Setup ey ovf pol y b eps) (hz : Setup ez ovf pol z b eps)
    (cx : ex.cfg = ez.cfg) (cy : ey.cfg = ez.cfg) (fx : calibFactor ex = calibFactor ez) (fy : calibFactor ey = calibFactor ez)
    (hc : Comb pol ez.cfg.lmax ez.cfg.lmax p q x y z)
    {n : ℕ} (hn : 1 ≤ n) {R outx outy outz : ℕ → List (Tod.Row ℝ)} (jx : Spmd.Returns n (Tod.job ex n R) outx)
    (jy : Spmd.Returns n (Tod.job ey n R) outy) (jz : Spmd.Returns n (Tod.job ez n R) outz) {r : ℕ} (hr : r < n) {i : ℕ}
    (hi : i < (R r).length) :
    ∃ α β γ, (outx r)[i]? = some α ∧ (outy r)[i]? = some β ∧ (outz r)[i]? = some γ ∧ γ.sig = p * α.sig + q * β.sig :=
  job_comb hovf hx hy hz cx cy fx fy (fun _ _ m' h1 h2 _ _ => skyBeam_sky hc b h1 h2 m') hn jx jy jz hr hi

/-- C20 for the signal: the same for beams that combine. -/
theorem C20_signal_linear_beam {ovf : Res ℤ} {v : ℤ} (hovf : ovf = ok v) {p q eps : ℝ} {pol : Bool} {s x y z : Exps}
    {ex ey ez : Tod.Env ℝ} (hx : Setup ex ovf pol s x eps) (hy : Setup ey ovf pol s y eps) (hz : Setup ez ovf pol s z eps)
    (cx : ex.cfg = ez.cfg) (cy : ey.cfg = ez.cfg) (fx : calibFactor ex = calibFactor ez) (fy : calibFactor ey = calibFactor ez)
    (hc : Comb pol ez.cfg.lmax ez.cfg.mbeam p q x y z)
    {n : ℕ} (hn : 1 ≤ n) {R outx outy outz : ℕ → List (Tod.Row ℝ)} (jx : Spmd.Returns n (Tod.job ex n R) outx)
    (jy : Spmd.Returns n (Tod.job ey n R) outy) (jz : Spmd.Returns n (Tod.job ez n R) outz) {r : ℕ} (hr : r < n) {i : ℕ}
    (hi : i < (R r).length) :
    ∃ α β γ, (outx r)[i]? = some α ∧ (outy r)[i]? = some β ∧ (outz r)[i]? = some γ ∧ γ.sig = p * α.sig + q * β.sig :=
  job_comb hovf hx hy hz cx cy fx fy
    (fun _ m _ h1 _ h3 h4 => skyBeam_beam hc s m h1 h3 (by unfold Tod.Cfg.npsi at h4; omega)) hn jx jy jz hr hi

/-- C20 for the signal: where gradient and curl vanish in the sky or in the beam, the polarised convolution gives every sample the
signal of the intensity-only one. -/
theorem C20_signal_polarised {ovf : Res ℤ} {v : ℤ} (hovf : ovf = ok v) {eps : ℝ} {s b : Exps} {ex ez : Tod.Env ℝ}
    (hx : Setup ex ovf false s b eps) (hz : Setup ez ovf true s b eps) (cx : ex.cfg = ez.cfg) (fx : calibFactor ex = calibFactor ez)
    (hG : Vanishes ez.cfg.lmax ez.cfg.lmax s.G ∨ Vanishes ez.cfg.lmax ez.cfg.mbeam b.G)
    (hC : Vanishes ez.cfg.lmax ez.cfg.lmax s.C ∨ Vanishes ez.cfg.lmax ez.cfg.mbeam b.C)
    {n : ℕ} (hn : 1 ≤ n) {R outx outz : ℕ → List (Tod.Row ℝ)} (jx : Spmd.Returns n (Tod.job ex n R) outx)
    (jz : Spmd.Returns n (Tod.job ez n R) outz) {r : ℕ} (hr : r < n) {i : ℕ} (hi : i < (R r).length) :
    ∃ α γ, (outx r)[i]? = some α ∧ (outz r)[i]? = some γ ∧ γ.sig = α.sig := by
  obtain ⟨a, _, c, h1, -, h3, h4⟩ := job_comb hovf (p := 1) (q := 0) hx hx hz cx cx fx fx
    (fun l m m' h1 h2 h3 h4 => by rw [skyBeam_pol hG hC h1 h2 h3 h4]; simp) hn jx jx jz hr hi
  exact ⟨a, c, h1, h3, by rw [h4]; ring⟩

/-! ## witness -/

/-- Twice the sky of `wExps`. -/
noncomputable def wExps2 : Exps := ⟨wAlm.scale (2 * ·), wAlm.scale (2 * ·), wAlm.scale (2 * ·)⟩

theorem wComb : Comb true 2 2 1 1 wExps wExps wExps2 := by
  have h : ∀ l m : ℕ, m ≤ l → l ≤ 2 → coef (wAlm.scale (2 * ·)) l m = 1 * coef wAlm l m + 1 * coef wAlm l m := by
    intro l m hm hl
    interval_cases l <;> interval_cases m <;>
      simp [coef, Harm.Alm.get, Harm.Alm.scale, wAlm, Harm.index, Harm.indexL0, rd] <;> ring
  intro l m h1 h2 _
  have := h l m h1 h2
  push_cast
  exact ⟨this, fun _ => ⟨this, this⟩⟩

noncomputable def wEnv2 : Tod.Env ℝ :=
  { wEnv with
    kern := fun _ => kernelRings (ok 0) wOrders (dft 5) true wExps2 wExps ⟨2, 2, 1⟩ (1 / 10 ^ 30)
    ring := fun south i => ringOf (ok 0) wOrders (dft 5) true wExps2 wExps ⟨2, 2, 1⟩ (1 / 10 ^ 30) south (Tod.ringTheta ⟨2, 2, 1⟩ i) }

theorem wKernelOK2 : KernelOK true wExps2 wExps 2 3 := by
  have hw : (wAlm.scale (2 * ·)).WF := by refine ⟨?_, ?_, ?_⟩ <;> simp [Harm.Alm.scale, wAlm, Harm.numAlms]
  have hf : Fits 2 3 (wAlm.scale (2 * ·)) wAlm :=
    ⟨hw, by simp [Harm.Alm.scale, wAlm], by simp [Harm.Alm.scale, wAlm], wAlm_wf, by simp [wAlm], by simp [wAlm]⟩
  exact ⟨by norm_num, by norm_num, by norm_num, hf, fun _ => hf, fun _ => hf⟩

theorem wSetup : Setup wEnv (ok 0) true wExps wExps (1 / 10 ^ 30) :=
  ⟨wEnv_ok, by decide, by decide, wKernelOK, wOrders, dft 5, wOrders_ok, dft_backward 5, fun _ _ => rfl⟩

theorem wEnv2_ok : Tod.EnvOK wEnv2 where
  verb := Tod.demoEnv_ok.verb
  sort := Tod.demoEnv_ok.sort
  sched := Tod.demoEnv_ok.sched
  nan := Tod.demoEnv_ok.nan
  ring_len := fun h i => (ringOf_spec (c := ⟨2, 2, 1⟩) rfl wKernelOK2 wOrders_ok (dft_backward 5) _ h _).1
  kern := fun _ mine => kernelRings_eq (c := ⟨2, 2, 1⟩) rfl wKernelOK2 wOrders_ok wOrders_ok (dft_backward 5) mine _

theorem wSetup2 : Setup wEnv2 (ok 0) true wExps2 wExps (1 / 10 ^ 30) where
  ok := wEnv2_ok
  bins := show 0 < Tod.demoEnv.nbin by decide
  order := show (1 : ℕ) ≤ 2 * 2 + 1 by decide
  kern := wKernelOK2
  rings := ⟨wOrders, dft 5, wOrders_ok, dft_backward 5, fun _ _ => rfl⟩

theorem wCal : calibFactor wEnv = calibFactor wEnv2 := by unfold calibFactor; rfl

/-- Three ranks, polarised expansions with complex coefficients: doubling the sky doubles every signal. -/
example : ∃ outx outz, Spmd.Returns 3 (Tod.job wEnv 3 Tod.demoRows) outx ∧ Spmd.Returns 3 (Tod.job wEnv2 3 Tod.demoRows) outz ∧
    ∀ r < 3, ∀ i < (Tod.demoRows r).length, ∃ α γ, (outx r)[i]? = some α ∧ (outz r)[i]? = some γ ∧ γ.sig = 2 * α.sig := by
  obtain ⟨outx, jx, -⟩ := Tod.C01_convolve_real wSetup.ok wSetup.order (by norm_num) (R := Tod.demoRows) Tod.demo_balanced
    (fun r _ => by simp [Tod.demoRows])
  obtain ⟨outz, jz, -⟩ := Tod.C01_convolve_real wSetup2.ok wSetup2.order (by norm_num) (R := Tod.demoRows) Tod.demo_balanced
    (fun r _ => by simp [Tod.demoRows])
  refine ⟨outx, outz, jx, jz, fun r hr i hi => ?_⟩
  obtain ⟨a, b, c, h1, h2, h3, h4⟩ := C20_signal_linear_sky (ovf := ok 0) (v := 0) (ex := wEnv) (ey := wEnv) (ez := wEnv2) rfl wSetup
    wSetup wSetup2 (show wEnv.cfg = wEnv2.cfg from rfl) (show wEnv.cfg = wEnv2.cfg from rfl) wCal wCal (p := 1) (q := 1) wComb (n := 3)
    (by norm_num) jx jx jz hr hi
  have hab : a = b := Option.some.inj (h1.symm.trans h2)
  exact ⟨a, c, h1, h3, by rw [h4, ← hab]; ring⟩

end Verif.Num
