import Verif.Util.RotThree

/-!
# `rotate_alm` rotates the function on the sphere (C71)
-/

namespace Verif.Risbo

open Verif Res Verif.Num Verif.Harm Verif.PowSpec Verif.Share Verif.Rot Matrix

/-! ## Specification -/

/-- The coefficients for all `m` of the real function stored in `a`. -/
noncomputable def coefs (a : Alm ℂ) (l : ℕ) (m : ℤ) : ℂ := full (coef a) l m

/-- The value in the direction `n` of the real function stored in `a`: `Σ_{l ≤ lmax} Σ_m a_lm Y_lm(n)`. -/
noncomputable def sky (a : Alm ℂ) (n : Fin 3 → ℝ) : ℂ := valueAt (coefs a) a.lmax.toNat n

/-- Unit vectors. -/
def IsUnit3 (n : Fin 3 → ℝ) : Prop := n 0 ^ 2 + n 1 ^ 2 + n 2 ^ 2 = 1

/-- The same coefficients. -/
def SameCoefs (a b : Alm ℂ) : Prop :=
  a.lmax = b.lmax ∧ a.mmax = b.mmax ∧ ∀ l m : ℕ, m ≤ l → (l : ℤ) ≤ a.lmax → a.get l m = b.get l m

/-! ## Proofs -/

theorem rotated_rotD (a : ℤ → ℤ → ℂ) (psi theta phi : ℝ) (l : ℕ) (m : ℤ) :
    rotated a psi theta phi l m = rotD (fun l m => full a l m) phi theta psi l m := by
  unfold rotated rotD wD
  rw [Finset.mul_sum]
  apply Finset.sum_congr rfl
  intro i _
  ring

theorem field_valueAt_congr {a b : ℕ → ℤ → ℂ} {L : ℕ} (h : ∀ l m, l ≤ L → |m| ≤ (l : ℤ) → a l m = b l m) (n : Fin 3 → ℝ) :
    valueAt a L n = valueAt b L n := field_congr h _ _

theorem Exec.rotate_coefs (x : Exec) {alm : Alm ℂ} (hwf : alm.WF) (h : alm.lmax = alm.mmax) (hreal : RealField (coef alm) alm.lmax)
    (psi theta phi : ℝ) : ∃ b, x.rotate alm psi theta phi = ok b ∧ b.WF ∧ b.lmax = alm.lmax ∧ b.mmax = alm.mmax ∧
      RealField (coef b) b.lmax ∧
      ∀ (l : ℕ) (m : ℤ), (l : ℤ) ≤ alm.lmax → |m| ≤ (l : ℤ) → coefs b l m = rotD (coefs alm) phi theta psi l m := by
  obtain ⟨b, hb, bwf, bl, bm, hv⟩ := x.rotate_ok hwf h psi theta phi
  obtain ⟨b', hb', hr⟩ := C47_rotate_real x alm hwf h psi theta phi hreal
  rw [hb] at hb'
  cases hb'
  refine ⟨b, hb, bwf, bl, bm, hr, ?_⟩
  intro l m hl hm
  unfold coefs
  rw [full_rotated (hreal l hl) psi theta phi (fun m hm => hv l m hm hl) hm, rotated_rotD]

/-- Composition of two rotations of the coefficients. -/
theorem rotD_comp (a : ℕ → ℤ → ℂ) {α β γ α' β' γ' α'' β'' γ'' : ℝ} (hR : makeEuler α'' β'' γ'' = makeEuler α β γ * makeEuler α' β' γ')
    {l : ℕ} {m : ℤ} (hm : |m| ≤ (l : ℤ)) {b : ℕ → ℤ → ℂ} (hb : ∀ m, |m| ≤ (l : ℤ) → b l m = rotD a α' β' γ' l m) :
    rotD b α β γ l m = rotD a α'' β'' γ'' l m := by
  unfold rotD
  rw [Finset.sum_congr rfl (fun i hi => by rw [hb _ (range_abs hi)])]
  unfold rotD
  simp only [Finset.mul_sum]
  rw [Finset.sum_comm]
  apply Finset.sum_congr rfl
  intro k hk
  rw [wD_mul l hm (range_abs hk) hR, Finset.sum_mul]
  apply Finset.sum_congr rfl
  intro i _
  ring

theorem rotD_congr (a : ℕ → ℤ → ℂ) {α β γ α' β' γ' : ℝ} (hR : makeEuler α β γ = makeEuler α' β' γ') {l : ℕ} {m : ℤ} (hm : |m| ≤ (l : ℤ)) :
    rotD a α β γ l m = rotD a α' β' γ' l m := by
  unfold rotD
  apply Finset.sum_congr rfl
  intro i hi
  rw [wD_congr l hm (range_abs hi) hR]

theorem sky_conj {a : Alm ℂ} (hreal : RealField (coef a) a.lmax) (h0 : 0 ≤ a.lmax) (n : Fin 3 → ℝ) :
    (starRingEnd ℂ) (sky a n) = sky a n := by
  unfold sky valueAt field
  rw [map_sum]
  apply Finset.sum_congr rfl
  intro l hl
  have hl' := Finset.mem_range.mp hl
  rw [map_sum, ← Finset.sum_range_reflect]
  apply Finset.sum_congr rfl
  intro i hi
  have hi' := Finset.mem_range.mp hi
  have ej : ((2 * l + 1 - 1 - i : ℕ) : ℤ) - l = -((i : ℤ) - l) := by omega
  rw [ej]
  have hm := range_abs hi
  generalize (i : ℤ) - l = m at *
  rw [map_mul]
  unfold coefs
  rw [full_neg (hreal l (by omega))]
  have hY : (starRingEnd ℂ) (sphY l (-m) (Real.arccos (n 2)) (atan2 (n 1) (n 0))) =
      (-1) ^ m.natAbs * sphY l m (Real.arccos (n 2)) (atan2 (n 1) (n 0)) := by
    unfold sphY
    have hd := wignerD_neg_neg l (m' := m) (m := 0) hm (by simp) (Real.arccos (n 2))
    rw [neg_zero, Int.natAbs_zero, add_zero] at hd
    rw [map_mul, Complex.conj_ofReal, ← Complex.exp_conj, hd]
    have e : (starRingEnd ℂ) (Complex.I * ((-m : ℤ) : ℂ) * (atan2 (n 1) (n 0) : ℂ)) = Complex.I * m * (atan2 (n 1) (n 0) : ℂ) := by simp
    rw [e]
    push_cast
    ring
  rw [hY]
  simp only [map_mul, Complex.conj_conj, map_pow, map_neg, map_one]
  have sg : ((-1 : ℂ)) ^ m.natAbs * (-1) ^ m.natAbs = 1 := by rw [← pow_add, ← two_mul, pow_mul]; simp
  linear_combination (full (coef a) l m * sphY l m (Real.arccos (n 2)) (atan2 (n 1) (n 0))) * sg

theorem get_of_coefs {a b : Alm ℂ} (ha : a.WF) (hb : b.WF) (hl : a.lmax = b.lmax) (hm : a.mmax = b.mmax) (h : a.lmax = a.mmax)
    (hc : ∀ (l : ℕ) (m : ℤ), (l : ℤ) ≤ a.lmax → |m| ≤ (l : ℤ) → coefs a l m = coefs b l m) : SameCoefs a b := by
  refine ⟨hl, hm, ?_⟩
  intro l m hml hll
  have e := hc l m hll (by rw [abs_of_nonneg (by omega)]; omega)
  unfold coefs full at e
  rw [if_pos (by omega), if_pos (by omega)] at e
  rw [get_coef ha ⟨by omega, by omega, by omega, by omega⟩, get_coef hb ⟨by omega, by omega, by omega, by omega⟩, e]

/-! ## The theorems -/

/-- C71: the function stored in a real expansion is real, and `rotate_alm(psi, theta, phi)` moves its value at every point `n`
of the sphere to the point `Rz(phi) Ry(theta) Rz(psi) n`. -/
theorem C71_field (x : Exec) (alm : Alm ℂ) (hwf : alm.WF) (h : alm.lmax = alm.mmax) (hreal : RealField (coef alm) alm.lmax)
    (psi theta phi : ℝ) : ∃ b, x.rotate alm psi theta phi = ok b ∧ RealField (coef b) b.lmax ∧
      ∀ n, IsUnit3 n → (sky alm n).im = 0 ∧ sky b ((Rz phi * Ry theta * Rz psi) *ᵥ n) = sky alm n := by
  obtain ⟨b, hb, bwf, bl, bm, hr, hv⟩ := x.rotate_coefs hwf h hreal psi theta phi
  refine ⟨b, hb, hr, ?_⟩
  intro n hn
  refine ⟨Complex.conj_eq_iff_im.mp (sky_conj hreal (by have := hwf.1; omega) n), ?_⟩
  rw [← C51_euler_composition]
  unfold sky
  rw [bl, field_valueAt_congr (b := rotD (coefs alm) phi theta psi) (fun l m hl hm => hv l m (by have := hwf.1; omega) hm)]
  exact valueAt_rotate _ _ _ _ _ hn

/-- C71: rotations that are the same as matrices have the same effect. -/
theorem C71_same_rotation (x y : Exec) (alm : Alm ℂ) (hwf : alm.WF) (h : alm.lmax = alm.mmax) (hreal : RealField (coef alm) alm.lmax)
    {psi theta phi psi' theta' phi' : ℝ} (hR : Rz phi * Ry theta * Rz psi = Rz phi' * Ry theta' * Rz psi') :
    ∃ b c, x.rotate alm psi theta phi = ok b ∧ y.rotate alm psi' theta' phi' = ok c ∧ SameCoefs b c := by
  obtain ⟨b, hb, bwf, bl, bm, -, hv⟩ := x.rotate_coefs hwf h hreal psi theta phi
  obtain ⟨c, hc, cwf, cl, cm, -, hw⟩ := y.rotate_coefs hwf h hreal psi' theta' phi'
  refine ⟨b, c, hb, hc, get_of_coefs bwf cwf (by rw [bl, cl]) (by rw [bm, cm]) (by rw [bl, bm, h]) ?_⟩
  intro l m hl hm
  rw [hv l m (by omega) hm, hw l m (by omega) hm]
  exact rotD_congr _ (by rw [C51_euler_composition, C51_euler_composition, hR]) hm

/-- C71: rotating by `R'` and then by `R` is rotating by `R R'`. -/
theorem C71_composition (x y z : Exec) (alm : Alm ℂ) (hwf : alm.WF) (h : alm.lmax = alm.mmax) (hreal : RealField (coef alm) alm.lmax)
    {psi theta phi psi' theta' phi' psi'' theta'' phi'' : ℝ}
    (hR : Rz phi'' * Ry theta'' * Rz psi'' = (Rz phi * Ry theta * Rz psi) * (Rz phi' * Ry theta' * Rz psi')) :
    ∃ b c d, x.rotate alm psi' theta' phi' = ok b ∧ y.rotate b psi theta phi = ok c ∧ z.rotate alm psi'' theta'' phi'' = ok d ∧
      SameCoefs c d := by
  obtain ⟨b, hb, bwf, bl, bm, br, hv⟩ := x.rotate_coefs hwf h hreal psi' theta' phi'
  obtain ⟨c, hc, cwf, cl, cm, -, hw⟩ := y.rotate_coefs bwf (by rw [bl, bm, h]) br psi theta phi
  obtain ⟨d, hd, dwf, dl, dm, -, hu⟩ := z.rotate_coefs hwf h hreal psi'' theta'' phi''
  refine ⟨b, c, d, hb, hc, hd, get_of_coefs cwf dwf (by rw [cl, bl, dl]) (by rw [cm, bm, dm]) (by rw [cl, cm, bl, bm, h]) ?_⟩
  intro l m hl hm
  rw [hw l m (by omega) hm, hu l m (by omega) hm]
  refine rotD_comp (coefs alm) (α' := phi') (β' := theta') (γ' := psi') (by rw [C51_euler_composition, C51_euler_composition, C51_euler_composition, hR]) hm ?_
  intro m' hm'
  exact hv l m' (by omega) hm'

/-- C71: `rotate_alm` with a rotation matrix `R` moves the value at `n` to `R' n`, where `R'` is a proper rotation whose entries are
within `2·10⁻⁶` of those of `R`, and `R' = R` if `R` moves the pole by more than `10⁻⁶` from the axis, or keeps it on the axis. -/
theorem C71_matrix (x : Exec) (alm : Alm ℂ) (hwf : alm.WF) (h : alm.lmax = alm.mmax) (hreal : RealField (coef alm) alm.lmax)
    {R : M3} (hR : Proper R) : ∃ b R', x.rotateMat alm R = ok b ∧ Proper R' ∧ Near (2 / 1000000) R' R ∧
      ((1 / 1000000 < √(R 0 2 ^ 2 + R 1 2 ^ 2) ∨ (R 0 2 = 0 ∧ R 1 2 = 0)) → R' = R) ∧
      ∀ n, IsUnit3 n → sky b (R' *ᵥ n) = sky alm n := by
  obtain ⟨b, hb, -, hv⟩ := C71_field x alm hwf h hreal (extractEuler R).2.2 (extractEuler R).2.1 (extractEuler R).1
  have hp := C51_extract_partial hR
  refine ⟨b, makeEuler (extractEuler R).1 (extractEuler R).2.1 (extractEuler R).2.2, hb, (C51_euler_proper _ _ _).1, hp.2, hp.1, ?_⟩
  intro n hn
  rw [C51_euler_composition]
  exact (hv n hn).2

/-- C71: the three-component `rotate_alm` throws unless `lmax = mmax` and the expansions have the same limits, and otherwise
returns what the scalar one returns for each component: each of the three functions is rotated. -/
theorem C71_three (x : Exec) (aT aG aC : Alm ℂ) (psi theta phi : ℝ) :
    (¬ (aT.lmax = aT.mmax ∧ conformable aG aT ∧ conformable aC aT) → (x.rotate3 aT aG aC psi theta phi).IsThrow) ∧
    (aT.WF → aG.WF → aC.WF → aT.lmax = aT.mmax → conformable aG aT → conformable aC aT →
      ∃ bT bG bC, x.rotate3 aT aG aC psi theta phi = ok (bT, bG, bC) ∧ x.rotate aT psi theta phi = ok bT ∧
        x.rotate aG psi theta phi = ok bG ∧ x.rotate aC psi theta phi = ok bC) := by
  constructor
  · intro hn
    unfold Exec.rotate3
    by_cases h : aT.lmax = aT.mmax
    · rw [if_pos h, if_neg (fun hc => hn ⟨h, hc.1, hc.2⟩)]; exact trivial
    · rw [if_neg h]; exact trivial
  · intro wT wG wC h hG hC
    obtain ⟨bT, rT, -⟩ := x.rotate_ok wT h psi theta phi
    obtain ⟨bG, rG, -⟩ := x.rotate_ok wG (by rw [hG.1, hG.2, h]) psi theta phi
    obtain ⟨bC, rC, -⟩ := x.rotate_ok wC (by rw [hC.1, hC.2, h]) psi theta phi
    exact ⟨bT, bG, bC, rotate3_eq x h hG hC rT rG rC, rT, rG, rC⟩

/-- C71: the same with a rotation matrix. -/
theorem C71_three_matrix (x : Exec) (aT aG aC : Alm ℂ) (wT : aT.WF) (wG : aG.WF) (wC : aC.WF) (h : aT.lmax = aT.mmax)
    (hG : conformable aG aT) (hC : conformable aC aT) (R : M3) :
    ∃ bT bG bC, x.rotateMat3 aT aG aC R = ok (bT, bG, bC) ∧ x.rotateMat aT R = ok bT ∧ x.rotateMat aG R = ok bG ∧ x.rotateMat aC R = ok bC :=
  (C71_three x aT aG aC _ _ _).2 wT wG wC h hG hC

/-- The hypotheses are met by an expansion with `lmax = mmax = 1`: a rotation by a right angle about the `y` axis moves the value
at the pole to the `x` axis. -/
example : ∃ b, serialExec.rotate ⟨1, 1, [1, 2, Complex.I]⟩ 0 (Real.pi / 2) 0 = ok b ∧
    sky b ![1, 0, 0] = sky ⟨1, 1, [1, 2, Complex.I]⟩ ![0, 0, 1] := by
  obtain ⟨b, hb, -, hv⟩ := C71_field serialExec ⟨1, 1, [1, 2, Complex.I]⟩ ⟨by decide, by decide, by decide⟩ rfl (by
    intro l hl
    have : l = 0 ∨ l = 1 := by simp only at hl; omega
    rcases this with rfl | rfl <;> simp [coef, Alm.get, index, indexL0, rd]) 0 (Real.pi / 2) 0
  refine ⟨b, hb, ?_⟩
  have := (hv ![0, 0, 1] (by unfold IsUnit3; simp)).2
  rw [← this]
  congr 1
  ext i; fin_cases i <;> simp [Rz, Ry, mulVec, dotProduct, mul_apply, Fin.sum_univ_three]

end Verif.Risbo
