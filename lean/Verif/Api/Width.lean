import Verif.Api.ObjProps
import Mathlib.Analysis.SpecialFunctions.Log.Basic
import Mathlib.Analysis.Complex.ExponentialBounds

/-!
# C32: the width that is divided out when a sky is read

The width of a sky is given in arc minutes, as the full width at half maximum of a Gaussian
(src/conviqt_io.cpp:176-187, levels/cxxsupport/ls_constants.h:52-59).
-/

namespace Verif.Obj
open Verif Res Verif.Harm

/-- The ratio of the full width at half maximum to the standard deviation that the library uses. -/
noncomputable def ratio : ℝ := 2.3548200450309493

theorem ratio_sq_lo : (ratio - 1e-9) ^ 2 < 8 * Real.log 2 := by
  have h := Real.log_two_gt_d9
  unfold ratio
  nlinarith [h, show ((2.3548200450309493 : ℝ) - 1e-9) ^ 2 < 8 * 0.6931471803 by norm_num]

theorem ratio_sq_hi : 8 * Real.log 2 < (ratio + 1e-9) ^ 2 := by
  have h := Real.log_two_lt_d9
  unfold ratio
  nlinarith [h, show 8 * (0.6931471808 : ℝ) < ((2.3548200450309493 : ℝ) + 1e-9) ^ 2 by norm_num]

/-- **What reading a sky divides out.**  A coefficient of degree `l` of a sky read with the width `F ≥ 0` in arc minutes is
multiplied by `exp(l (l+1) σ² / 2)` (and `exp(-2σ²)` more for the polarisation), where `σ` is `F` arc minutes in radian
divided by a constant that differs from `√(8 ln 2)` by less than `10⁻⁹`; and a Gaussian whose standard deviation is its
width divided by `√(8 ln 2)` has fallen to one half at half of the width. -/
theorem C32_width (F : ℝ) (hF : 0 ≤ F) :
    (∀ l : ℤ, gaussFactor (-(arcmin2rad * F)) l
        = Real.exp ((l : ℝ) * (l + 1) * (F / 60 * (Real.pi / 180) / ratio) ^ 2 / 2)) ∧
    polFactor (-(arcmin2rad * F)) = Real.exp (-(2 * (F / 60 * (Real.pi / 180) / ratio) ^ 2)) ∧
    |ratio - Real.sqrt (8 * Real.log 2)| < 1e-9 ∧
    (F ≠ 0 → Real.exp (-(F / 2) ^ 2 / (2 * (F / Real.sqrt (8 * Real.log 2)) ^ 2)) = 1 / 2) := by
  have hpos : 0 < 8 * Real.log 2 := by have := Real.log_pos (show (1 : ℝ) < 2 by norm_num); linarith
  have hs : sigmaOf (-(arcmin2rad * F)) ^ 2 = (F / 60 * (Real.pi / 180) / ratio) ^ 2 := by
    unfold sigmaOf arcmin2rad ratio
    norm_num
    ring
  have hw : ∀ l : ℤ, (gaussWindow (sigmaOf (-(arcmin2rad * F))) l)⁻¹
      = Real.exp ((l : ℝ) * (l + 1) * (F / 60 * (Real.pi / 180) / ratio) ^ 2 / 2) := by
    intro l
    unfold gaussWindow
    rw [← Real.exp_neg, ← hs]
    congr 1
    ring
  have hA : 0 < arcmin2rad := by unfold arcmin2rad; positivity
  refine ⟨?_, ?_, ?_, ?_⟩
  · intro l
    unfold gaussFactor
    by_cases h0 : F = 0
    · subst h0
      have hz : sigmaOf 0 = 0 := by unfold sigmaOf; simp
      simp [gaussWindow, hz]
    · have : ¬ (0 ≤ -(arcmin2rad * F)) := by
        have : 0 < F := lt_of_le_of_ne hF (Ne.symm h0)
        have := mul_pos hA this
        linarith
      rw [if_neg this, hw]
  · unfold polFactor
    by_cases h0 : F = 0
    · subst h0
      have hz : sigmaOf 0 = 0 := by unfold sigmaOf; simp
      simp [hz]
    · have : ¬ (0 ≤ -(arcmin2rad * F)) := by
        have : 0 < F := lt_of_le_of_ne hF (Ne.symm h0)
        have := mul_pos hA this
        linarith
      rw [if_neg this, ← Real.exp_neg, hs]
  · have h1 : ratio - 1e-9 < Real.sqrt (8 * Real.log 2) := Real.lt_sqrt_of_sq_lt ratio_sq_lo
    have h2 : Real.sqrt (8 * Real.log 2) < ratio + 1e-9 :=
      (Real.sqrt_lt' (by unfold ratio; norm_num)).mpr ratio_sq_hi
    rw [abs_lt]; constructor <;> linarith
  · intro hne
    rw [div_pow F (Real.sqrt (8 * Real.log 2)), Real.sq_sqrt hpos.le]
    have : -(F / 2) ^ 2 / (2 * (F ^ 2 / (8 * Real.log 2))) = -Real.log 2 := by
      have hl : Real.log 2 ≠ 0 := (Real.log_pos (by norm_num)).ne'
      field_simp
      ring
    rw [this, Real.exp_neg, Real.exp_log (by norm_num)]
    norm_num

end Verif.Obj
