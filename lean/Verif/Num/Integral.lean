import Verif.Num.Accuracy
import Verif.Num.SphereInt

/-!
# The total convolution as an integral over the sphere: general coefficients
-/

namespace Verif.Num
open Verif Finset Verif.Rot Matrix

/-! ## Specification -/

/-- Coefficients of a real function: `a_{l,-m} = (-1)^m conj a_{lm}`. -/
def RealC (L : ℕ) (a : ℕ → ℤ → ℂ) : Prop :=
  ∀ (l : ℕ) (m : ℤ), l ≤ L → |m| ≤ (l : ℤ) → a l (-m) = (-1) ^ m.natAbs * (starRingEnd ℂ) (a l m)

/-- The orders up to `mb`. -/
noncomputable def cut (mb : ℕ) (a : ℕ → ℤ → ℂ) (l : ℕ) (m : ℤ) : ℂ := if |m| ≤ (mb : ℤ) then a l m else 0

/-- `∫ s(n) b(R⁻¹ n) dn`: the integral over the sphere of the function `s` times the function `b` turned by `R`. -/
noncomputable def overlap (s b : ℕ → ℤ → ℂ) (L : ℕ) (R : M3) : ℂ :=
  sphInt fun n => valueAt s L n * valueAt b L (Rᵀ *ᵥ n)

/-- The triple sum for one component. -/
noncomputable def tot (s b : ℕ → ℤ → ℂ) (lmax mb : ℕ) (theta phi psi : ℝ) : ℂ :=
  ∑ m' ∈ Icc (-(mb : ℤ)) mb, ∑ m ∈ Icc (-(lmax : ℤ)) lmax, ∑ l ∈ Icc (max m.natAbs m'.natAbs) lmax,
    (-1) ^ m.natAbs * (wignerD l m' m theta : ℂ) * (s l m * (starRingEnd ℂ) (b l m')) *
      Complex.exp (Complex.I * m * phi) * Complex.exp (Complex.I * m' * psi)

/-! ## Proofs -/

theorem RealC.cut {L : ℕ} {a : ℕ → ℤ → ℂ} (h : RealC L a) (mb : ℕ) : RealC L (cut mb a) := by
  intro l m hl hm
  unfold Num.cut
  rw [abs_neg]
  split
  · exact h l m hl hm
  · simp

theorem sphY_conj (l : ℕ) {m : ℤ} (hm : |m| ≤ l) (θ φ : ℝ) :
    (starRingEnd ℂ) (sphY l (-m) θ φ) = (-1) ^ m.natAbs * sphY l m θ φ := by
  unfold sphY
  have hd := wignerD_neg_neg l (m' := m) (m := 0) hm (by simp) θ
  rw [neg_zero, Int.natAbs_zero, add_zero] at hd
  rw [map_mul, Complex.conj_ofReal, ← Complex.exp_conj, hd]
  have e : (starRingEnd ℂ) (Complex.I * ((-m : ℤ) : ℂ) * (φ : ℂ)) = Complex.I * m * (φ : ℂ) := by simp
  rw [e]
  push_cast
  ring

theorem valueAt_real {L : ℕ} {a : ℕ → ℤ → ℂ} (h : RealC L a) (n : Fin 3 → ℝ) : (starRingEnd ℂ) (valueAt a L n) = valueAt a L n := by
  unfold valueAt field
  rw [map_sum]
  apply sum_congr rfl
  intro l hl
  have hl' := mem_range.mp hl
  rw [map_sum, ← sum_range_reflect]
  apply sum_congr rfl
  intro i hi
  have hi' := mem_range.mp hi
  have ej : ((2 * l + 1 - 1 - i : ℕ) : ℤ) - l = -((i : ℤ) - l) := by omega
  rw [ej]
  have hm := range_abs hi
  generalize (i : ℤ) - l = m at *
  rw [map_mul, sphY_conj l hm, h l m (by omega) hm]
  simp only [map_mul, Complex.conj_conj, map_pow, map_neg, map_one]
  have sg : ((-1 : ℂ)) ^ m.natAbs * (-1) ^ m.natAbs = 1 := by rw [← pow_add, ← two_mul, pow_mul]; simp
  linear_combination (a l m * sphY l m (Real.arccos (n 2)) (atan2 (n 1) (n 0))) * sg

theorem sphInt_congr {F G : (Fin 3 → ℝ) → ℂ} (h : ∀ n : Fin 3 → ℝ, n 0 ^ 2 + n 1 ^ 2 + n 2 ^ 2 = 1 → F n = G n) : sphInt F = sphInt G := by
  unfold sphInt
  simp only [h _ (dir_unit _ _)]

/-- The integral as a scalar product of coefficients. -/
theorem overlap_inner (s : ℕ → ℤ → ℂ) {b : ℕ → ℤ → ℂ} {L : ℕ} (hb : RealC L b) (α β γ : ℝ) :
    overlap s b L (makeEuler α β γ) =
      ∑ l ∈ range (L + 1), ∑ i ∈ range (2 * l + 1), s l ((i : ℤ) - l) * (starRingEnd ℂ) (rotD b α β γ l ((i : ℤ) - l)) := by
  rw [← sphInt_inner]
  apply sphInt_congr
  intro n hn
  have hp := (C51_euler_proper α β γ).1
  have hn' : ((makeEuler α β γ)ᵀ *ᵥ n) 0 ^ 2 + ((makeEuler α β γ)ᵀ *ᵥ n) 1 ^ 2 + ((makeEuler α β γ)ᵀ *ᵥ n) 2 ^ 2 = 1 := by
    have := mulVec_unit (C51_euler_proper (-γ) (-β) (-α)).1 hn
    rwa [euler_inv] at this
  have e := valueAt_rotate b L α β γ hn'
  rw [mulVec_mulVec, show makeEuler α β γ * (makeEuler α β γ)ᵀ = 1 from mul_eq_one_comm.mp (C51_euler_proper α β γ).2, one_mulVec] at e
  rw [e, valueAt_real hb]

theorem sum_Icc_range (l : ℕ) (f : ℤ → ℂ) : ∑ m ∈ Icc (-(l : ℤ)) l, f m = ∑ i ∈ range (2 * l + 1), f ((i : ℤ) - l) := by
  refine sum_nbij' (fun m => (m + l).toNat) (fun i => (i : ℤ) - l) ?_ ?_ ?_ ?_ ?_
  · intro m hm; have := mem_Icc.mp hm; simp only [mem_range]; omega
  · intro i hi; have := mem_range.mp hi; simp only [mem_Icc]; omega
  · intro m hm; have := mem_Icc.mp hm; omega
  · intro i hi; omega
  · intro m hm; have := mem_Icc.mp hm; congr 1; omega

theorem sum_reorder (lmax mb : ℕ) (f : ℕ → ℤ → ℤ → ℂ) :
    ∑ m' ∈ Icc (-(mb : ℤ)) mb, ∑ m ∈ Icc (-(lmax : ℤ)) lmax, ∑ l ∈ Icc (max m.natAbs m'.natAbs) lmax, f l m m' =
    ∑ l ∈ range (lmax + 1), ∑ i ∈ range (2 * l + 1), ∑ k ∈ range (2 * l + 1),
      if |(k : ℤ) - l| ≤ (mb : ℤ) then f l ((i : ℤ) - l) ((k : ℤ) - l) else 0 := by
  have h1 : ∀ m' : ℤ, ∑ m ∈ Icc (-(lmax : ℤ)) lmax, ∑ l ∈ Icc (max m.natAbs m'.natAbs) lmax, f l m m' =
      ∑ l ∈ Icc m'.natAbs lmax, ∑ m ∈ Icc (-(l : ℤ)) l, f l m m' := by
    intro m'
    apply sum_comm'
    intro m l
    simp only [mem_Icc, max_le_iff]
    omega
  simp only [h1]
  rw [sum_comm' (t' := range (lmax + 1)) (s' := fun l => (Icc (-(l : ℤ)) l).filter (fun m' => |m'| ≤ (mb : ℤ))) (by
    intro m' l
    simp only [mem_Icc, mem_filter, mem_range, abs_le]
    omega)]
  apply sum_congr rfl
  intro l _
  rw [sum_filter, sum_Icc_range, sum_comm]
  apply sum_congr rfl
  intro k _
  rw [sum_Icc_range]
  split
  · rfl
  · simp

theorem exp_pi (m : ℤ) : Complex.exp (Complex.I * m * Real.pi) = (-1) ^ m.natAbs := by
  rw [show Complex.I * m * Real.pi = m * (Real.pi * Complex.I) by ring, Complex.exp_int_mul, Complex.exp_pi_mul_I]
  rcases Int.natAbs_eq m with h | h
  · conv_lhs => rw [h]
    rw [zpow_natCast]
  · conv_lhs => rw [h]
    rw [zpow_neg, zpow_natCast]
    rcases neg_one_pow_eq_or ℂ m.natAbs with e | e <;> rw [e] <;> norm_num

theorem wD_term (l : ℕ) {m m' : ℤ} (hm : |m| ≤ l) (hm' : |m'| ≤ l) (theta phi psi : ℝ) :
    (starRingEnd ℂ) (wD l m m' phi theta (psi + Real.pi)) =
      (-1) ^ m.natAbs * (wignerD l m' m theta : ℂ) * Complex.exp (Complex.I * m * phi) * Complex.exp (Complex.I * m' * psi) := by
  unfold wD
  rw [map_mul, map_mul, ← Complex.exp_conj, ← Complex.exp_conj, Complex.conj_ofReal, wignerD_transpose l hm' hm]
  have e1 : (starRingEnd ℂ) (-(Complex.I * (m : ℂ) * (phi : ℂ))) = Complex.I * m * phi := by simp
  have e2 : (starRingEnd ℂ) (-(Complex.I * (m' : ℂ) * ((psi + Real.pi : ℝ) : ℂ))) = Complex.I * m' * psi + Complex.I * m' * Real.pi := by
    simp; ring
  rw [e1, e2, Complex.exp_add, exp_pi]
  push_cast
  have sg : ((-1 : ℂ)) ^ m'.natAbs * (-1) ^ m'.natAbs = 1 := by rw [← pow_add, ← two_mul, pow_mul]; simp
  rw [pow_add]
  linear_combination ((-1) ^ m.natAbs * (wignerD l m' m theta : ℂ) * Complex.exp (Complex.I * m * phi) * Complex.exp (Complex.I * m' * psi)) * sg

/-- The triple sum is the integral. -/
theorem tot_overlap (s : ℕ → ℤ → ℂ) {b : ℕ → ℤ → ℂ} {lmax : ℕ} (hb : RealC lmax b) (mb : ℕ) (theta phi psi : ℝ) :
    tot s b lmax mb theta phi psi = overlap s (cut mb b) lmax (Rz phi * Ry theta * Rz (psi + Real.pi)) := by
  rw [← C51_euler_composition, overlap_inner s (hb.cut mb)]
  unfold tot
  rw [sum_reorder]
  apply sum_congr rfl; intro l _
  apply sum_congr rfl; intro i hi
  unfold rotD
  rw [map_sum, mul_sum]
  apply sum_congr rfl; intro k hk
  rw [map_mul, wD_term l (range_abs hi) (range_abs hk)]
  unfold cut
  split
  · ring
  · simp

end Verif.Num
