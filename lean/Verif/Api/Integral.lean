import Verif.Num.SpinField
import Verif.Api.EndToEnd
import Verif.Util.RotGroup

/-!
# The signal is the sky seen through the beam (C72)

The total convolution of C19, C61 and C63 is the integral over the sphere of the sky times the beam turned to the pointing.
-/

namespace Verif.Num
open Verif Res Finset Verif.Rot Matrix

/-! ## Specification -/

/-- What an instrument with the beam `b` (orders up to `mb`) in the orientation `R` sees of the sky `s`: the integral over the
sphere of sky times turned beam, summed over the components in use. -/
noncomputable def observed (pol : Bool) (s b : Exps) (lmax mb : ℕ) (R : M3) : ℂ :=
  overlap (coefZ s.T) (cut mb (coefZ b.T)) lmax R +
  if pol then overlap (coefZ s.G) (cut mb (coefZ b.G)) lmax R + overlap (coefZ s.C) (cut mb (coefZ b.C)) lmax R else 0

/-- The orientation of the instrument for a pointing: the pole goes to colatitude `θ` and longitude `φ`, the beam having been turned
about its axis by `ψ + π` before. -/
noncomputable def orient (theta phi psi : ℝ) : M3 := Rz phi * Ry theta * Rz (psi + Real.pi)

/-- `Q + iU` of the sky at `n`, with respect to the local directions south and east. -/
noncomputable def skyPol (s : Exps) (lmax : ℕ) (n : Fin 3 → ℝ) : ℂ :=
  polAt (fun l m => coefZ s.G l m + Complex.I * coefZ s.C l m) lmax n

/-- `Q + iU` of the beam (orders up to `mb`) in the orientation `R` at `n`, with respect to the same directions: what the unturned beam
has at `R⁻¹ n` with respect to these directions turned by `R⁻¹`. -/
noncomputable def beamPol (b : Exps) (lmax mb : ℕ) (R : M3) (n : Fin 3 → ℝ) : ℂ :=
  polIn (fun l m => cut mb (coefZ b.G) l m + Complex.I * cut mb (coefZ b.C) l m) lmax (Rᵀ * localFrame n)

/-- `∫ (I I + Q Q + U U)`: what a polarised instrument sees. -/
noncomputable def observedStokes (s b : Exps) (lmax mb : ℕ) (R : M3) : ℂ :=
  overlap (coefZ s.T) (cut mb (coefZ b.T)) lmax R +
  sphInt fun n => (((skyPol s lmax n).re * (beamPol b lmax mb R n).re + (skyPol s lmax n).im * (beamPol b lmax mb R n).im : ℝ) : ℂ)

/-! ## Proofs -/

theorem coefZ_real {a : Harm.Alm ℂ} {L : ℕ} (h : ∀ l ≤ L, (coef a l 0).im = 0) : RealC L (coefZ a) :=
  fun l m hl _ => coefZ_reality (h l hl) m

theorem tot_add (lmax mb : ℕ) (f g : ℕ → ℤ → ℤ → ℂ) :
    ∑ m' ∈ Icc (-(mb : ℤ)) mb, ∑ m ∈ Icc (-(lmax : ℤ)) lmax, ∑ l ∈ Icc (max m.natAbs m'.natAbs) lmax, (f l m m' + g l m m') =
    ∑ m' ∈ Icc (-(mb : ℤ)) mb, ∑ m ∈ Icc (-(lmax : ℤ)) lmax, ∑ l ∈ Icc (max m.natAbs m'.natAbs) lmax, f l m m' +
    ∑ m' ∈ Icc (-(mb : ℤ)) mb, ∑ m ∈ Icc (-(lmax : ℤ)) lmax, ∑ l ∈ Icc (max m.natAbs m'.natAbs) lmax, g l m m' := by
  simp only [sum_add_distrib]

theorem fullConv_tot (pol : Bool) (s b : Exps) (lmax mb : ℕ) (theta phi psi : ℝ) :
    fullConv pol s b lmax mb theta phi psi = tot (coefZ s.T) (coefZ b.T) lmax mb theta phi psi +
      if pol then tot (coefZ s.G) (coefZ b.G) lmax mb theta phi psi + tot (coefZ s.C) (coefZ b.C) lmax mb theta phi psi else 0 := by
  unfold fullConv convTerm skyBeam tot
  cases pol with
  | false => simp
  | true =>
    simp only [if_true]
    rw [← tot_add, ← tot_add]
    refine sum_congr rfl fun m' _ => sum_congr rfl fun m _ => sum_congr rfl fun l _ => ?_
    ring

/-- Turning the sky and the pointing. -/
theorem tot_frame {s s' b : ℕ → ℤ → ℂ} {lmax : ℕ} (hb : RealC lmax b) (mb : ℕ) {α β γ θ φ ψ θ' φ' ψ' : ℝ}
    (hs : ∀ (l : ℕ) (m : ℤ), l ≤ lmax → |m| ≤ (l : ℤ) → s' l m = rotD s α β γ l m)
    (hR : Rz φ' * Ry θ' * Rz ψ' = (Rz α * Ry β * Rz γ) * (Rz φ * Ry θ * Rz ψ)) :
    tot s' b lmax mb θ' φ' ψ' = tot s b lmax mb θ φ ψ := by
  rw [tot_overlap _ hb, tot_overlap _ hb, ← C51_euler_composition, ← C51_euler_composition, overlap_inner _ (hb.cut mb),
    overlap_inner _ (hb.cut mb)]
  have hE : makeEuler φ' θ' (ψ' + Real.pi) = makeEuler α β γ * makeEuler φ θ (ψ + Real.pi) := by
    rw [C51_euler_composition, C51_euler_composition, C51_euler_composition, Rz_add, Rz_add, ← Matrix.mul_assoc, hR]
    simp only [Matrix.mul_assoc]
  apply sum_congr rfl; intro l hl
  rw [← rotD_inner s (rotD (cut mb b) φ θ (ψ + Real.pi)) α β γ l]
  apply sum_congr rfl; intro i hi
  rw [hs l _ (by have := mem_range.mp hl; omega) (range_abs hi),
    Risbo.rotD_comp (cut mb b) hE (range_abs hi) (b := rotD (cut mb b) φ θ (ψ + Real.pi)) (fun _ _ => rfl)]

theorem coefZ_coefs {a : Harm.Alm ℂ} (l : ℕ) (m : ℤ) : Risbo.coefs a l m = coefZ a l m := by
  unfold Risbo.coefs Risbo.full coefZ PowSpec.coef coef
  split
  · rw [show ((m.natAbs : ℕ) : ℤ) = m by omega]; rfl
  · rw [show ((m.natAbs : ℕ) : ℤ) = -m by omega]; rfl

/-! ## The theorems -/

/-- **C72**: for a real beam the total convolution at a pointing is the integral over the sphere of the sky times the beam turned to
that pointing. -/
theorem C72_total {pol : Bool} (s : Exps) {b : Exps} {lmax : ℕ} (hb : RealField pol lmax b) (mb : ℕ) (theta phi psi : ℝ) :
    fullConv pol s b lmax mb theta phi psi = observed pol s b lmax mb (orient theta phi psi) := by
  rw [fullConv_tot]
  unfold observed orient
  rw [tot_overlap _ (coefZ_real hb.1)]
  cases pol with
  | false => rfl
  | true =>
    rw [if_pos rfl, if_pos rfl, tot_overlap _ (coefZ_real fun l hl => (hb.2 rfl l hl).1), tot_overlap _ (coefZ_real fun l hl => (hb.2 rfl l hl).2)]

/-- **C72** for polarised convolutions: the total convolution is the integral over the sphere of the products of the Stokes parameters
`I`, `Q`, `U` of the sky and of the beam turned to the pointing. -/
theorem C72_polarised {s b : Exps} {lmax : ℕ} (hs : RealField true lmax s) (hb : RealField true lmax b) (mb : ℕ)
    (low : ∀ (l : ℕ) (m : ℤ), l < 2 → l ≤ lmax → |m| ≤ (l : ℤ) → coefZ b.G l m = 0 ∧ coefZ b.C l m = 0) (theta phi psi : ℝ) :
    fullConv true s b lmax mb theta phi psi = observedStokes s b lmax mb (orient theta phi psi) := by
  rw [C72_total s hb]
  unfold observed observedStokes skyPol beamPol orient
  rw [if_pos rfl, ← C51_euler_composition, pol_overlap (coefZ_real fun l hl => (hs.2 rfl l hl).1) (coefZ_real fun l hl => (hs.2 rfl l hl).2)
    ((coefZ_real fun l hl => (hb.2 rfl l hl).1).cut mb) ((coefZ_real fun l hl => (hb.2 rfl l hl).2).cut mb) (by
      intro l m h1 h2 h3
      unfold cut
      rw [(low l m h1 h2 h3).1, (low l m h1 h2 h3).2]
      simp)]

/-- **C72** for `convolve`: every value written is, within the error bound of C61, the integral over the sphere of the sky times the
beam turned to the sample's pointing (times the calibration factor). -/
theorem C72_convolve {ovf : Res ℤ} {v : ℤ} (hovf : ovf = ok v) {pol : Bool} {s b : Exps} {e : Tod.Env ℝ} (he : Tod.EnvOK e)
    (hnb : 0 < e.nbin) (h : KernelOK pol s b e.cfg.lmax e.cfg.npsi) (hs : RealField pol e.cfg.lmax s) (hb : RealField pol e.cfg.lmax b)
    {o : Orders} (ho : o.OK e.cfg.lmax e.cfg.npsi) {fft : List ℂ → List ℂ}
    (hf : IsBackward fft e.cfg.nphi) {eps : ℝ} (hr : RingsFrom e ovf o fft pol s b eps) (hord : e.cfg.order ≤ e.cfg.nphi)
    {n : ℕ} (hn : 1 ≤ n) {R out : ℕ → List (Tod.Row ℝ)} (hret : Spmd.Returns n (Tod.job e n R) out)
    {r : ℕ} (hrn : r < n) {i : ℕ} (hi : i < (R r).length) :
    ∃ (x : ℝ) (y : Tod.Row ℝ) (W : ℤ → ℤ → ℕ → Bool), (out r)[i]? = some y ∧
      y.sig = (if e.calibrate && !e.normalized then x * (2 / (1 + e.eps)) else x) ∧
      (∀ m' m l, W m' m l = true → ∃ (ϑ : ℝ) (t : ℤ),
        |ϑ - ((R r)[i].theta - 2 * Real.pi * t)| ≤ Real.pi / (e.cfg.lmax + 1) * (e.cfg.order + 1) + 1 / 10 ^ 15 ∧
        (|wignerD l m' m ϑ| ≤ tau e.cfg.lmax eps ∨ |wignerD l m' (-m) ϑ| ≤ tau e.cfg.lmax eps)) ∧
      ‖(x : ℂ) - observed pol s b e.cfg.lmax e.cfg.mbeam (orient (R r)[i].theta (R r)[i].phi (R r)[i].psi)‖ ≤
        ∑ m' ∈ Icc (-(e.cfg.mbeam : ℤ)) e.cfg.mbeam, ∑ m ∈ Icc (-(e.cfg.lmax : ℤ)) e.cfg.lmax,
          ∑ l ∈ Icc (max m.natAbs m'.natAbs) e.cfg.lmax, ‖skyBeam pol s b l m m'‖ *
            (termErr e.cfg.lmax e.cfg.npoints l m + if W m' m l then wLambda e.cfg.npoints else 0) := by
  obtain ⟨x, y, W, h1, h2, h3, h4⟩ := C61_convolve hovf he hnb h hs hb ho hf hr hord hn hret hrn hi
  refine ⟨x, y, W, h1, h2, h3, ?_⟩
  rw [← C72_total s hb]
  exact h4

/-- **C72**: only the relative orientation of sky and instrument matters: turning the sky with `rotate_alm` and the pointing by the
same rotation changes nothing. -/
theorem C72_frame (x : Risbo.Exec) (pol : Bool) (s : Exps) (wT : s.T.WF) (wG : s.G.WF) (wC : s.C.WF) (h : s.T.lmax = s.T.mmax)
    (hG : PowSpec.conformable s.G s.T) (hC : PowSpec.conformable s.C s.T) (rT : Risbo.RealField (PowSpec.coef s.T) s.T.lmax)
    (rG : Risbo.RealField (PowSpec.coef s.G) s.T.lmax) (rC : Risbo.RealField (PowSpec.coef s.C) s.T.lmax) (psi theta phi : ℝ) :
    ∃ T G C, x.rotate3 s.T s.G s.C psi theta phi = ok (T, G, C) ∧
      ∀ (b : Exps) (lmax mb : ℕ), (lmax : ℤ) ≤ s.T.lmax → RealField pol lmax b → ∀ θ φ ψ θ' φ' ψ' : ℝ,
        Rz φ' * Ry θ' * Rz ψ' = (Rz phi * Ry theta * Rz psi) * (Rz φ * Ry θ * Rz ψ) →
        fullConv pol ⟨T, G, C⟩ b lmax mb θ' φ' ψ' = fullConv pol s b lmax mb θ φ ψ := by
  obtain ⟨T, G, C, h3, xT, xG, xC⟩ := (Risbo.C71_three x s.T s.G s.C psi theta phi).2 wT wG wC h hG hC
  obtain ⟨T', yT, -, -, -, -, vT⟩ := x.rotate_coefs wT h rT psi theta phi
  obtain ⟨G', yG, -, -, -, -, vG⟩ := x.rotate_coefs wG (by rw [hG.1, hG.2, h]) (by rw [hG.1]; exact rG) psi theta phi
  obtain ⟨C', yC, -, -, -, -, vC⟩ := x.rotate_coefs wC (by rw [hC.1, hC.2, h]) (by rw [hC.1]; exact rC) psi theta phi
  rw [xT] at yT; cases yT
  rw [xG] at yG; cases yG
  rw [xC] at yC; cases yC
  refine ⟨T, G, C, h3, ?_⟩
  intro b lmax mb hl hb θ φ ψ θ' φ' ψ' hR
  rw [fullConv_tot, fullConv_tot]
  have cl : ∀ a : Harm.Alm ℂ, Risbo.coefs a = coefZ a := fun a => by funext l m; exact coefZ_coefs l m
  rw [cl, cl] at vT vG vC
  rw [tot_frame (coefZ_real hb.1) mb (fun l m h1 h2 => vT l m (by omega) h2) hR]
  cases pol with
  | false => rw [if_neg (by decide), if_neg (by decide)]
  | true =>
    rw [if_pos rfl, if_pos rfl,
      tot_frame (coefZ_real fun l hl => (hb.2 rfl l hl).1) mb (fun l m h1 h2 => vG l m (by rw [hG.1]; omega) h2) hR,
      tot_frame (coefZ_real fun l hl => (hb.2 rfl l hl).2) mb (fun l m h1 h2 => vC l m (by rw [hC.1]; omega) h2) hR]

/-- **C72**: a pencil beam sees the value of the sky in the direction of the pointing. -/
theorem C72_pencil (s : Exps) {b : Exps} {lmax mb : ℕ} (h0 : ∀ l ≤ lmax, coefZ b.T l 0 = (√((2 * l + 1) / (4 * Real.pi)) : ℝ))
    (h1 : ∀ (l : ℕ) (m : ℤ), l ≤ lmax → |m| ≤ (l : ℤ) → |m| ≤ (mb : ℤ) → m ≠ 0 → coefZ b.T l m = 0) (theta phi psi : ℝ) :
    fullConv false s b lmax mb theta phi psi = valueAt (coefZ s.T) lmax (dir theta phi) := by
  rw [fullConv_tot, valueAt_dir]
  simp only [Bool.false_eq_true, if_false, add_zero]
  unfold tot field
  rw [sum_reorder]
  apply sum_congr rfl; intro l hl
  apply sum_congr rfl; intro i hi
  have hl' := mem_range.mp hl
  rw [sum_eq_single_of_mem l (by simp only [mem_range]; omega)]
  · rw [if_pos (by simp), sub_self, h0 l (by omega)]
    have hm := range_abs hi
    generalize (i : ℤ) - l = m at *
    unfold sphY
    rw [wignerD_transpose l (m' := 0) (m := m) (by simp) hm, Complex.conj_ofReal]
    push_cast
    simp
    ring
  · intro k hk hne
    split
    · rename_i hmb
      rw [h1 l _ (by omega) (range_abs hk) hmb (by omega)]
      simp
    · rfl

/-- **C72**: a normalised beam of any shape sees a uniform sky as it is. -/
theorem C72_uniform {s b : Exps} {lmax mb : ℕ} (hs : ∀ (l : ℕ) (m : ℤ), l ≤ lmax → |m| ≤ (l : ℤ) → l ≠ 0 → coefZ s.T l m = 0)
    (hb : coefZ b.T 0 0 = (1 / (2 * √Real.pi) : ℝ)) (theta phi psi : ℝ) {n : Fin 3 → ℝ} :
    fullConv false s b lmax mb theta phi psi = valueAt (coefZ s.T) lmax n := by
  rw [fullConv_tot]
  simp only [Bool.false_eq_true, if_false, add_zero]
  unfold tot valueAt field
  rw [sum_reorder]
  have hw : ∀ t, wignerD 0 0 0 t = 1 := by intro t; simp [wignerD]
  have e : √((2 * ((0 : ℕ) : ℝ) + 1) / (4 * Real.pi)) = 1 / (2 * √Real.pi) := by
    rw [show (2 * ((0 : ℕ) : ℝ) + 1) / (4 * Real.pi) = (1 / (2 * √Real.pi)) ^ 2 by
      rw [div_pow, mul_pow, Real.sq_sqrt Real.pi_pos.le]; norm_num]
    exact Real.sqrt_sq (by positivity)
  apply sum_congr rfl; intro l hl
  apply sum_congr rfl; intro i hi
  by_cases h0 : l = 0
  · subst h0
    have hi0 : i = 0 := by have := mem_range.mp hi; omega
    subst hi0
    unfold sphY
    rw [Nat.mul_zero, Nat.zero_add, range_one, sum_singleton, if_pos (by simp)]
    rw [show ((0 : ℕ) : ℤ) - ((0 : ℕ) : ℤ) = 0 by simp, hw, hw, e, hb, Complex.conj_ofReal]
    simp
  · rw [hs l _ (by have := mem_range.mp hl; omega) (range_abs hi) h0, zero_mul]
    apply sum_eq_zero; intro k hk
    simp

/-- A dipole `a_11 = 1`, `a_{1,-1} = -1`. -/
noncomputable def dipole : Exps := ⟨⟨1, 1, [0, 0, 1]⟩, ⟨1, 1, [0, 0, 0]⟩, ⟨1, 1, [0, 0, 0]⟩⟩

theorem dipole_real (pol : Bool) : RealField pol 1 dipole := by
  constructor
  · intro l hl
    have : l = 0 ∨ l = 1 := by omega
    rcases this with rfl | rfl <;> simp [dipole, coef, Harm.Alm.get, Harm.index, Harm.indexL0, rd]
  · intro _ l hl
    have : l = 0 ∨ l = 1 := by omega
    rcases this with rfl | rfl <;> simp [dipole, coef, Harm.Alm.get, Harm.index, Harm.indexL0, rd]

/-- The hypotheses are met by a dipole sky seen through a dipole beam; the value is largest, the sum of the squares of the
coefficients, for `ψ = -π`: the beam axis of order one is turned by half a turn. -/
example : fullConv false dipole dipole 1 1 0 0 (-Real.pi) = 2 := by
  rw [C72_total dipole (dipole_real false)]
  unfold observed orient
  rw [← C51_euler_composition, overlap_inner _ ((coefZ_real (dipole_real false).1).cut 1)]
  have hR : makeEuler 0 0 (-Real.pi + Real.pi) = 1 := by rw [neg_add_cancel]; exact euler_zero
  have h : ∀ l ∈ range 2, ∀ i ∈ range (2 * l + 1), rotD (cut 1 (coefZ dipole.T)) 0 0 (-Real.pi + Real.pi) l ((i : ℤ) - l) =
      cut 1 (coefZ dipole.T) l ((i : ℤ) - l) := fun l _ i hi => rotD_one _ hR l (range_abs hi)
  rw [sum_congr rfl (fun l hl => sum_congr rfl (fun i hi => by rw [h l hl i hi]))]
  have c0 : coef dipole.T 0 0 = 0 := by simp [dipole, coef, Harm.Alm.get, Harm.index, Harm.indexL0, rd]
  have c1 : coef dipole.T 1 0 = 0 := by simp [dipole, coef, Harm.Alm.get, Harm.index, Harm.indexL0, rd]
  have c2 : coef dipole.T 1 1 = 1 := by simp [dipole, coef, Harm.Alm.get, Harm.index, Harm.indexL0, rd]
  simp [sum_range_succ, cut, coefZ, c0, c1, c2]
  norm_num

/-- The rotation and the pointings of C72_frame: the dipole sky is turned by a right angle about the y axis. -/
example : ∃ T G C, Risbo.serialExec.rotate3 dipole.T dipole.G dipole.C 0 (Real.pi / 2) 0 = ok (T, G, C) ∧
    fullConv true ⟨T, G, C⟩ dipole 1 1 (Real.pi / 2 + 1) 0 0 = fullConv true dipole dipole 1 1 1 0 0 := by
  obtain ⟨T, G, C, h1, h2⟩ := C72_frame Risbo.serialExec true dipole ⟨by decide, by decide, by decide⟩ ⟨by decide, by decide, by decide⟩
    ⟨by decide, by decide, by decide⟩ rfl ⟨rfl, rfl⟩ ⟨rfl, rfl⟩ (by
      intro l hl
      have : l = 0 ∨ l = 1 := by simp only [dipole] at hl; omega
      rcases this with rfl | rfl <;> simp [dipole, PowSpec.coef, Harm.Alm.get, Harm.index, Harm.indexL0, rd]) (by
      intro l hl
      have : l = 0 ∨ l = 1 := by simp only [dipole] at hl; omega
      rcases this with rfl | rfl <;> simp [dipole, PowSpec.coef, Harm.Alm.get, Harm.index, Harm.indexL0, rd]) (by
      intro l hl
      have : l = 0 ∨ l = 1 := by simp only [dipole] at hl; omega
      rcases this with rfl | rfl <;> simp [dipole, PowSpec.coef, Harm.Alm.get, Harm.index, Harm.indexL0, rd]) 0 (Real.pi / 2) 0
  refine ⟨T, G, C, h1, h2 dipole 1 1 (by decide) (dipole_real true) 1 0 0 _ 0 0 ?_⟩
  have hz : Rz 0 = 1 := by unfold Rz; apply ext9 <;> simp
  rw [hz]
  simp only [one_mul, mul_one]
  unfold Ry
  apply ext9 <;> simp [mul_apply, Fin.sum_univ_three, Real.cos_add, Real.sin_add]

/-- A polarised sky and beam with `lmax = 2`. -/
noncomputable def quadrupole : Exps := ⟨⟨2, 2, [1, 2, 3, 4, 5, 6]⟩, ⟨2, 2, [0, 0, 1, 0, 0, Complex.I]⟩, ⟨2, 2, [0, 0, 2, 0, 1, 0]⟩⟩

theorem quadrupole_real : RealField true 2 quadrupole := by
  constructor
  · intro l hl
    have : l = 0 ∨ l = 1 ∨ l = 2 := by omega
    rcases this with rfl | rfl | rfl <;> simp [quadrupole, coef, Harm.Alm.get, Harm.index, Harm.indexL0, rd]
  · intro _ l hl
    have : l = 0 ∨ l = 1 ∨ l = 2 := by omega
    rcases this with rfl | rfl | rfl <;> simp [quadrupole, coef, Harm.Alm.get, Harm.index, Harm.indexL0, rd]

/-- The hypotheses of C72_polarised are met. -/
example : fullConv true quadrupole quadrupole 2 2 1 2 3 = observedStokes quadrupole quadrupole 2 2 (orient 1 2 3) := by
  refine C72_polarised quadrupole_real quadrupole_real 2 ?_ 1 2 3
  intro l m h1 _ h3
  have hl : l = 0 ∨ l = 1 := by omega
  rcases hl with rfl | rfl
  · have : m = 0 := abs_nonpos_iff.mp (by simpa using h3)
    subst this
    simp [quadrupole, coefZ, coef, Harm.Alm.get, Harm.index, Harm.indexL0, rd]
  · have : m = 0 ∨ m = 1 ∨ m = -1 := by have := abs_le.mp h3; omega
    rcases this with rfl | rfl | rfl <;> simp [quadrupole, coefZ, coef, Harm.Alm.get, Harm.index, Harm.indexL0, rd]

/-- A pencil beam with `lmax = 1`; its monopole is that of a normalised beam. -/
noncomputable def pencil : Exps :=
  ⟨⟨1, 1, [(√((2 * (0 : ℕ) + 1) / (4 * Real.pi)) : ℝ), (√((2 * (1 : ℕ) + 1) / (4 * Real.pi)) : ℝ), 0]⟩, ⟨1, 1, []⟩, ⟨1, 1, []⟩⟩

example : fullConv false dipole pencil 1 1 1 2 3 = valueAt (coefZ dipole.T) 1 (dir 1 2) := by
  refine C72_pencil dipole ?_ ?_ 1 2 3
  · intro l hl
    have : l = 0 ∨ l = 1 := by omega
    rcases this with rfl | rfl <;> simp [pencil, coefZ, coef, Harm.Alm.get, Harm.index, Harm.indexL0, rd]
  · intro l m hl hm _ hne
    have : l = 0 ∨ l = 1 := by omega
    rcases this with rfl | rfl
    · exact absurd (abs_nonpos_iff.mp (by simpa using hm)) hne
    · have : m = 1 ∨ m = -1 := by have := abs_le.mp hm; omega
      rcases this with rfl | rfl <;> simp [pencil, coefZ, coef, Harm.Alm.get, Harm.index, Harm.indexL0, rd]

example : fullConv false ⟨⟨1, 1, [7, 0, 0]⟩, ⟨1, 1, []⟩, ⟨1, 1, []⟩⟩ pencil 1 1 1 2 3 = valueAt (coefZ ⟨1, 1, [7, 0, 0]⟩) 1 ![0, 0, 1] := by
  refine C72_uniform (s := ⟨⟨1, 1, [7, 0, 0]⟩, ⟨1, 1, []⟩, ⟨1, 1, []⟩⟩) ?_ ?_ 1 2 3
  · intro l m hl hm hne
    have : l = 1 := by omega
    subst this
    have : m = 1 ∨ m = -1 ∨ m = 0 := by have := abs_le.mp hm; omega
    rcases this with rfl | rfl | rfl <;> simp [coefZ, coef, Harm.Alm.get, Harm.index, Harm.indexL0, rd]
  · have e : √((2 * ((0 : ℕ) : ℝ) + 1) / (4 * Real.pi)) = 1 / (2 * √Real.pi) := by
      rw [show (2 * ((0 : ℕ) : ℝ) + 1) / (4 * Real.pi) = (1 / (2 * √Real.pi)) ^ 2 by
        rw [div_pow, mul_pow, Real.sq_sqrt Real.pi_pos.le]; norm_num]
      exact Real.sqrt_sq (by positivity)
    rw [← e]
    simp [pencil, coefZ, coef, Harm.Alm.get, Harm.index, Harm.indexL0, rd]

end Verif.Num

namespace Verif.Obj
open Verif Res Verif.Harm Verif.Num Verif.Fits Finset Matrix

/-! ## From files -/

/-- `observed` for coefficients given by HDU (2: temperature, 3: gradient, 4: curl). -/
noncomputable def observedSpec (pol : Bool) (S B : ℕ → ℕ → ℕ → ℂ) (lmax mmax : ℕ) (R : Rot.M3) : ℂ :=
  ((hdus pol).map fun h => overlap (allOrders (S h)) (cut mmax (allOrders (B h))) lmax R).sum

theorem allOrders_real {f : ℕ → ℕ → ℂ} {L : ℕ} (h : ∀ l ≤ L, (f l 0).im = 0) : RealC L (allOrders f) := by
  intro l m hl _
  have hsq : ((-1 : ℂ) ^ m.natAbs) * (-1) ^ m.natAbs = 1 := by rw [← mul_pow]; norm_num
  unfold allOrders
  rcases lt_trichotomy m 0 with h1 | h1 | h1
  · rw [if_pos (by omega), if_neg (by omega), Int.natAbs_neg]
    simp only [map_mul, map_pow, map_neg, map_one, Complex.conj_conj]
    rw [← mul_assoc, hsq, one_mul]
  · subst h1
    simp [Complex.conj_eq_iff_im.mpr (h l hl)]
  · rw [if_neg (by omega), if_pos (by omega), Int.natAbs_neg]

theorem convSpec_observed {pol : Bool} (S : ℕ → ℕ → ℕ → ℂ) {B : ℕ → ℕ → ℕ → ℂ} {lmax : ℕ} (hB : RealCoefs pol B lmax) (mmax : ℕ)
    (theta phi psi : ℝ) : convSpec pol S B lmax mmax theta phi psi = observedSpec pol S B lmax mmax (orient theta phi psi) := by
  have key : ∀ h ∈ hdus pol, overlap (allOrders (S h)) (cut mmax (allOrders (B h))) lmax (orient theta phi psi) =
      tot (allOrders (S h)) (allOrders (B h)) lmax mmax theta phi psi := by
    intro h hh
    unfold orient
    rw [tot_overlap _ (allOrders_real (hB h hh))]
  unfold observedSpec
  rw [List.map_congr_left key]
  unfold convSpec pairing tot hdus
  cases pol with
  | false => simp
  | true =>
    simp only [if_true, List.map_cons, List.map_nil, List.sum_cons, List.sum_nil, add_zero]
    rw [← tot_add, ← tot_add]
    refine sum_congr rfl fun m' _ => sum_congr rfl fun m _ => sum_congr rfl fun l _ => ?_
    ring

/-- **C72** from files: wherever the calls of C63 deliver the total convolution of the coefficients in the files, every value written
is, within the same bound, the integral over the sphere of the sky times the beam turned to the sample's pointing. -/
theorem C72_delivers {nbin : ℕ} {pol : Bool} {S B : ℕ → ℕ → ℕ → ℂ} {lmax mmax order : ℕ} {f : ℝ} {n : ℕ} {R : ℕ → List (Tod.Row ℝ)}
    {P : ℕ → Spmd.Prog ℝ (List (Tod.Row ℝ))} (hD : Delivers nbin pol S B lmax mmax order f n R P) (hB : RealCoefs pol B lmax)
    {out : ℕ → List (Tod.Row ℝ)} (hret : Spmd.Returns n P out) {r : ℕ} (hr : r < n) {i : ℕ} (hi : i < (R r).length) :
    ∃ (σ : ℝ) (W : ℤ → ℤ → ℕ → Bool),
      (out r)[i]? = some ⟨(R r)[i].phi, (R r)[i].theta, (R r)[i].psi, σ, ((Tod.samples r R).length + i : ℕ)⟩ ∧
      (∀ m' m l, W m' m l = true → ∃ (ϑ : ℝ) (t : ℤ),
        |ϑ - ((R r)[i].theta - 2 * Real.pi * t)| ≤ Real.pi / (lmax + 1) * (order + 1) + 1 / 10 ^ 15 ∧
        (|wignerD l m' m ϑ| ≤ tau lmax (1 / 10 ^ 30) ∨ |wignerD l m' (-m) ϑ| ≤ tau lmax (1 / 10 ^ 30))) ∧
      ‖(σ : ℂ) - f * observedSpec pol S B lmax mmax (orient (R r)[i].theta (R r)[i].phi (R r)[i].psi)‖ ≤
        |f| * ∑ m' ∈ Icc (-(mmax : ℤ)) mmax, ∑ m ∈ Icc (-(lmax : ℤ)) lmax, ∑ l ∈ Icc (max m.natAbs m'.natAbs) lmax,
          ‖pairing pol S B l m m'‖ * (termErr lmax (order + 1) l m + if W m' m l then wLambda (order + 1) else 0) := by
  obtain ⟨σ, W, h1, h2, h3⟩ := (hD.values out hret r hr).2 i hi
  refine ⟨σ, W, h1, h2, ?_⟩
  rw [← convSpec_observed S hB]
  exact h3

/-- `∫ (I I + Q Q + U U)` for coefficients given by HDU. -/
noncomputable def stokesSpec (S B : ℕ → ℕ → ℕ → ℂ) (lmax mmax : ℕ) (R : Rot.M3) : ℂ :=
  overlap (allOrders (S 2)) (cut mmax (allOrders (B 2))) lmax R +
  sphInt fun n =>
    let P := polAt (fun l m => allOrders (S 3) l m + Complex.I * allOrders (S 4) l m) lmax n
    let b := polIn (fun l m => cut mmax (allOrders (B 3)) l m + Complex.I * cut mmax (allOrders (B 4)) l m) lmax (Rᵀ * localFrame n)
    ((P.re * b.re + P.im * b.im : ℝ) : ℂ)

/-- **C72** from files, polarised: what is delivered is the integral of the products of the Stokes parameters. -/
theorem C72_files_polarised {S B : ℕ → ℕ → ℕ → ℂ} {lmax : ℕ} (hS : RealCoefs true S lmax) (hB : RealCoefs true B lmax) (mmax : ℕ)
    (low : ∀ l m : ℕ, l < 2 → l ≤ lmax → m ≤ l → B 3 l m = 0 ∧ B 4 l m = 0) (theta phi psi : ℝ) :
    observedSpec true S B lmax mmax (orient theta phi psi) = stokesSpec S B lmax mmax (orient theta phi psi) := by
  have m3 : 3 ∈ hdus true := by simp [hdus]
  have m4 : 4 ∈ hdus true := by simp [hdus]
  unfold observedSpec stokesSpec orient
  simp only [hdus, if_true, List.map_cons, List.map_nil, List.sum_cons, List.sum_nil, add_zero]
  rw [← Rot.C51_euler_composition, pol_overlap (allOrders_real (hS 3 m3)) (allOrders_real (hS 4 m4))
    ((allOrders_real (hB 3 m3)).cut mmax) ((allOrders_real (hB 4 m4)).cut mmax) (by
      intro l m h1 h2 h3
      obtain ⟨a1, a2⟩ := abs_le.mp h3
      have := low l m.natAbs h1 h2 (by omega)
      unfold cut allOrders
      rw [this.1, this.2]
      simp)]

end Verif.Obj
