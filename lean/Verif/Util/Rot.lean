import Mathlib.LinearAlgebra.Matrix.Adjugate
import Mathlib.Analysis.SpecialFunctions.Complex.Arg
import Mathlib.Analysis.SpecialFunctions.Trigonometric.Basic
import Mathlib.Tactic.LinearCombination
import Mathlib.Tactic.FinCases

/-!
# Rotation matrices (C51)

levels/cxxsupport/rotmatrix.cc:60-199, ls_rotmatrix.h.  Exact arithmetic; `entry[i][j]` is `R i j`.
-/

namespace Verif.Rot

open Matrix

/-- `rotmatrix`, ls_rotmatrix.h:44-47. -/
abbrev M3 := Matrix (Fin 3) (Fin 3) ℝ

/-- `vec3` -/
structure V3 where
  x : ℝ
  y : ℝ
  z : ℝ

/-- `atan2(y,x)` of the C library in exact arithmetic (signed zeros are not distinguished). -/
noncomputable def atan2 (y x : ℝ) : ℝ := Complex.arg ⟨x, y⟩

/-- `Make_CPAC_Euler_Matrix`, rotmatrix.cc:137-146. -/
noncomputable def makeEuler (alpha beta gamma : ℝ) : M3 :=
  let ca := Real.cos alpha
  let cb := Real.cos beta
  let cg := Real.cos gamma
  let sa := Real.sin alpha
  let sb := Real.sin beta
  let sg := Real.sin gamma
  !![ca * cb * cg - sa * sg, -ca * cb * sg - sa * cg, ca * sb;
     sa * cb * cg + ca * sg, -sa * cb * sg + ca * cg, sa * sb;
     -sb * cg, sb * sg, cb]

open Classical in
/-- `Extract_CPAC_Euler_Angles`, rotmatrix.cc:148-167. -/
noncomputable def extractEuler (R : M3) : ℝ × ℝ × ℝ :=
  let cb := R 2 2
  let sb := √(R 0 2 * R 0 2 + R 1 2 * R 1 2)
  let beta := atan2 sb cb
  if |sb| ≤ 1 / 1000000 then
    if 0 < cb then (0, beta, atan2 (R 1 0) (R 0 0)) else (0, beta, atan2 (R 0 1) (-R 0 0))
  else (atan2 (R 1 2) (R 0 2), beta, atan2 (R 2 1) (-R 2 0))

/-- `Make_Axis_Rotation_Transform`, rotmatrix.cc:119-135. -/
noncomputable def makeAxis (a : V3) (angle : ℝ) : M3 :=
  let sa := Real.sin angle
  let ca := Real.cos angle
  let ica := 1 - ca
  !![a.x * a.x * ica + ca, a.x * a.y * ica - a.z * sa, a.x * a.z * ica + a.y * sa;
     a.x * a.y * ica + a.z * sa, a.y * a.y * ica + ca, a.y * a.z * ica - a.x * sa;
     a.x * a.z * ica - a.y * sa, a.y * a.z * ica + a.x * sa, a.z * a.z * ica + ca]

open Classical in
/-- The part of `toAxisAngle` for half turns, rotmatrix.cc:90-116; `none`: division by a zero component, the result contains
NaN or infinity. -/
noncomputable def halfTurn (R : M3) : Option (V3 × ℝ) :=
  let c1 := R 0 0 < R 1 1 ∧ R 2 2 < R 1 1
  let c2 := R 0 0 < R 2 2 ∧ R 1 1 < R 2 2
  if c2 then
    let z := 1 / 2 * √(R 2 2 - R 0 0 - R 1 1 + 1)
    if z = 0 then none else some (⟨1 / 2 / z * R 0 2, 1 / 2 / z * R 1 2, z⟩, Real.pi)
  else if c1 then
    let y := 1 / 2 * √(R 1 1 - R 0 0 - R 2 2 + 1)
    if y = 0 then none else some (⟨1 / 2 / y * R 0 1, y, 1 / 2 / y * R 1 2⟩, Real.pi)
  else
    let x := 1 / 2 * √(R 0 0 - R 1 1 - R 2 2 + 1)
    if x = 0 then none else some (⟨x, 1 / 2 / x * R 0 1, 1 / 2 / x * R 0 2⟩, Real.pi)

open Classical in
/-- `toAxisAngle`, rotmatrix.cc:67-117. -/
noncomputable def toAxisAngle (R : M3) : Option (V3 × ℝ) :=
  let c2 := R 0 0 + R 1 1 + R 2 2 - 1
  let ax := R 2 1 - R 1 2
  let ay := R 0 2 - R 2 0
  let az := R 1 0 - R 0 1
  let s2 := √(ax * ax + ay * ay + az * az)
  if 0 < s2 then some (⟨ax * (1 / s2), ay * (1 / s2), az * (1 / s2)⟩, atan2 s2 c2)
  else if 2 ≤ c2 then some (⟨1, 0, 0⟩, 0)
  else halfTurn R

/-! ## Specification -/

/-- Proper rotation. -/
def Proper (R : M3) : Prop := R * Rᵀ = 1 ∧ R.det = 1

/-- Rotation about the z axis. -/
noncomputable def Rz (a : ℝ) : M3 := !![Real.cos a, -Real.sin a, 0; Real.sin a, Real.cos a, 0; 0, 0, 1]
/-- Rotation about the y axis. -/
noncomputable def Ry (b : ℝ) : M3 := !![Real.cos b, 0, Real.sin b; 0, 1, 0; -Real.sin b, 0, Real.cos b]

theorem ext9 {A B : M3} (h00 : A 0 0 = B 0 0) (h01 : A 0 1 = B 0 1) (h02 : A 0 2 = B 0 2) (h10 : A 1 0 = B 1 0)
    (h11 : A 1 1 = B 1 1) (h12 : A 1 2 = B 1 2) (h20 : A 2 0 = B 2 0) (h21 : A 2 1 = B 2 1) (h22 : A 2 2 = B 2 2) : A = B := by
  ext i j; fin_cases i <;> fin_cases j <;> assumption

/-- Equations satisfied by the entries of a proper rotation: rows and columns are orthonormal, every entry equals its
cofactor. -/
structure Eqs (R : M3) : Prop where
  r00 : R 0 0 * R 0 0 + R 0 1 * R 0 1 + R 0 2 * R 0 2 = 1
  r11 : R 1 0 * R 1 0 + R 1 1 * R 1 1 + R 1 2 * R 1 2 = 1
  r22 : R 2 0 * R 2 0 + R 2 1 * R 2 1 + R 2 2 * R 2 2 = 1
  r01 : R 0 0 * R 1 0 + R 0 1 * R 1 1 + R 0 2 * R 1 2 = 0
  r02 : R 0 0 * R 2 0 + R 0 1 * R 2 1 + R 0 2 * R 2 2 = 0
  r12 : R 1 0 * R 2 0 + R 1 1 * R 2 1 + R 1 2 * R 2 2 = 0
  c00 : R 0 0 * R 0 0 + R 1 0 * R 1 0 + R 2 0 * R 2 0 = 1
  c11 : R 0 1 * R 0 1 + R 1 1 * R 1 1 + R 2 1 * R 2 1 = 1
  c22 : R 0 2 * R 0 2 + R 1 2 * R 1 2 + R 2 2 * R 2 2 = 1
  c01 : R 0 0 * R 0 1 + R 1 0 * R 1 1 + R 2 0 * R 2 1 = 0
  c02 : R 0 0 * R 0 2 + R 1 0 * R 1 2 + R 2 0 * R 2 2 = 0
  c12 : R 0 1 * R 0 2 + R 1 1 * R 1 2 + R 2 1 * R 2 2 = 0
  k00 : R 0 0 = R 1 1 * R 2 2 - R 1 2 * R 2 1
  k01 : R 0 1 = R 1 2 * R 2 0 - R 1 0 * R 2 2
  k02 : R 0 2 = R 1 0 * R 2 1 - R 1 1 * R 2 0
  k10 : R 1 0 = R 0 2 * R 2 1 - R 0 1 * R 2 2
  k11 : R 1 1 = R 0 0 * R 2 2 - R 0 2 * R 2 0
  k12 : R 1 2 = R 0 1 * R 2 0 - R 0 0 * R 2 1
  k20 : R 2 0 = R 0 1 * R 1 2 - R 0 2 * R 1 1
  k21 : R 2 1 = R 0 2 * R 1 0 - R 0 0 * R 1 2
  k22 : R 2 2 = R 0 0 * R 1 1 - R 0 1 * R 1 0

theorem Proper.transpose {R : M3} (h : Proper R) : Proper Rᵀ :=
  ⟨by rw [transpose_transpose]; exact mul_eq_one_comm.mp h.1, by rw [det_transpose]; exact h.2⟩

theorem Proper.eqs {R : M3} (h : Proper R) : Eqs R := by
  have e : ∀ i j, (R * Rᵀ) i j = (1 : M3) i j := fun i j => by rw [h.1]
  have e' : ∀ i j, (Rᵀ * R) i j = (1 : M3) i j := fun i j => by rw [mul_eq_one_comm.mp h.1]
  have ha : R.adjugate = Rᵀ := by
    have := adjugate_mul R
    calc R.adjugate = R.adjugate * (R * Rᵀ) := by rw [h.1, mul_one]
      _ = _ := by rw [← mul_assoc, adjugate_mul, h.2, one_smul, one_mul]
  have k : ∀ i j, R.adjugate i j = R j i := fun i j => by rw [ha]; rfl
  rw [adjugate_fin_three] at k
  simp only [mul_apply, Fin.sum_univ_three, transpose_apply, one_apply] at e e'
  have a := e 0 0; have b := e 1 1; have c := e 2 2; have d := e 0 1; have f := e 0 2; have g := e 1 2
  have a' := e' 0 0; have b' := e' 1 1; have c' := e' 2 2; have d' := e' 0 1; have f' := e' 0 2; have g' := e' 1 2
  simp at a b c d f g a' b' c' d' f' g'
  have k00 := k 0 0; have k01 := k 1 0; have k02 := k 2 0
  have k10 := k 0 1; have k11 := k 1 1; have k12 := k 2 1
  have k20 := k 0 2; have k21 := k 1 2; have k22 := k 2 2
  simp at k00 k01 k02 k10 k11 k12 k20 k21 k22
  constructor <;> linarith

theorem Proper.mul {A B : M3} (ha : Proper A) (hb : Proper B) : Proper (A * B) := by
  refine ⟨?_, by rw [det_mul, ha.2, hb.2, one_mul]⟩
  rw [transpose_mul, mul_assoc, ← mul_assoc B, hb.1, one_mul, ha.1]

theorem proper_Rz (a : ℝ) : Proper (Rz a) := by
  have h := Real.sin_sq_add_cos_sq a
  constructor
  · unfold Rz
    apply ext9 <;> simp [mul_apply, Fin.sum_univ_three, Matrix.vecHead, Matrix.vecTail] <;> nlinarith
  · unfold Rz
    rw [det_fin_three]
    simp
    nlinarith

theorem proper_Ry (a : ℝ) : Proper (Ry a) := by
  have h := Real.sin_sq_add_cos_sq a
  constructor
  · unfold Ry
    apply ext9 <;> simp [mul_apply, Fin.sum_univ_three, Matrix.vecHead, Matrix.vecTail] <;> nlinarith
  · unfold Ry
    rw [det_fin_three]
    simp
    nlinarith

/-- C51: the Euler matrix is the rotation by `γ` about z, followed by `β` about y, followed by `α` about z (as documented). -/
theorem C51_euler_composition (α β γ : ℝ) : makeEuler α β γ = Rz α * Ry β * Rz γ := by
  unfold makeEuler Rz Ry
  apply ext9 <;> simp [mul_apply, Fin.sum_univ_three] <;> ring

/-- C51: it is a proper rotation, and its transpose is its inverse on both sides. -/
theorem C51_euler_proper (α β γ : ℝ) : Proper (makeEuler α β γ) ∧ (makeEuler α β γ)ᵀ * makeEuler α β γ = 1 := by
  have h : Proper (makeEuler α β γ) := by
    rw [C51_euler_composition]
    exact ((proper_Rz α).mul (proper_Ry β)).mul (proper_Rz γ)
  exact ⟨h, mul_eq_one_comm.mp h.1⟩

theorem atan2_cos_sin {x y r : ℝ} (hr : 0 < r) (h : x * x + y * y = r * r) :
    Real.cos (atan2 y x) = x / r ∧ Real.sin (atan2 y x) = y / r := by
  have hn : ‖(⟨x, y⟩ : ℂ)‖ = r := by
    rw [Complex.norm_def, Complex.normSq_mk, h, Real.sqrt_mul_self hr.le]
  unfold atan2
  have hne : (⟨x, y⟩ : ℂ) ≠ 0 := by rw [← norm_pos_iff, hn]; exact hr
  rw [Complex.cos_arg hne, Complex.sin_arg, hn]
  exact ⟨rfl, rfl⟩

/-- The distance between two matrices is at most `d` in every entry. -/
def Near (d : ℝ) (A B : M3) : Prop := ∀ i j, |A i j - B i j| ≤ d

section extract

variable {R : M3}

/-- sine of the polar angle -/
noncomputable abbrev sinb (R : M3) : ℝ := √(R 0 2 * R 0 2 + R 1 2 * R 1 2)

theorem sinb_sq (h : Eqs R) : sinb R * sinb R = 1 - R 2 2 * R 2 2 := by
  rw [Real.mul_self_sqrt (by nlinarith [mul_self_nonneg (R 0 2), mul_self_nonneg (R 1 2)])]
  linarith [h.c22]

/-- General position. -/
theorem extract_generic (h : Eqs R) (hs : 1 / 1000000 < sinb R) :
    makeEuler (extractEuler R).1 (extractEuler R).2.1 (extractEuler R).2.2 = R := by
  have hs0 : 0 < sinb R := by linarith
  have hss := sinb_sq h
  have hb := atan2_cos_sin (x := R 2 2) (y := sinb R) one_pos (by linarith)
  have ha := atan2_cos_sin (x := R 0 2) (y := R 1 2) hs0 (by linarith [h.c22])
  have hg := atan2_cos_sin (x := -R 2 0) (y := R 2 1) hs0 (by linarith [h.r22])
  have he : extractEuler R = (atan2 (R 1 2) (R 0 2), atan2 (sinb R) (R 2 2), atan2 (R 2 1) (-R 2 0)) := by
    unfold extractEuler
    dsimp only
    rw [if_neg (by rw [abs_of_pos hs0]; linarith)]
  rw [he]
  unfold makeEuler
  dsimp only
  rw [ha.1, ha.2, hb.1, hb.2, hg.1, hg.2]
  generalize sinb R = s at *
  have hsn : s ≠ 0 := hs0.ne'
  apply ext9 <;> simp only [of_apply, cons_val', cons_val_zero, cons_val_one, cons_val, div_one]
  · field_simp
    linear_combination (-R 2 2) * h.k11 + (-1 : ℝ) * h.k00 - R 0 0 * hss
  · field_simp
    linear_combination R 2 2 * h.k10 - (1 : ℝ) * h.k01 - R 0 1 * hss
  · field_simp
  · field_simp
    linear_combination R 2 2 * h.k01 - (1 : ℝ) * h.k10 - R 1 0 * hss
  · field_simp
    linear_combination (-R 2 2) * h.k00 - (1 : ℝ) * h.k11 - R 1 1 * hss
  · field_simp
  · field_simp
  · field_simp

theorem abs_mul_le {a b A B : ℝ} (ha : |a| ≤ A) (hb : |b| ≤ B) : |a * b| ≤ A * B := by
  rw [abs_mul]
  exact mul_le_mul ha hb (abs_nonneg _) (le_trans (abs_nonneg _) ha)

theorem abs_sub_le2 {a b A B : ℝ} (ha : |a| ≤ A) (hb : |b| ≤ B) : |a - b| ≤ A + B := by
  have := abs_sub a b
  linarith

theorem near_ext {A B : M3} {d : ℝ} (h00 : |A 0 0 - B 0 0| ≤ d) (h01 : |A 0 1 - B 0 1| ≤ d) (h02 : |A 0 2 - B 0 2| ≤ d)
    (h10 : |A 1 0 - B 1 0| ≤ d) (h11 : |A 1 1 - B 1 1| ≤ d) (h12 : |A 1 2 - B 1 2| ≤ d) (h20 : |A 2 0 - B 2 0| ≤ d)
    (h21 : |A 2 1 - B 2 1| ≤ d) (h22 : |A 2 2 - B 2 2| ≤ d) : Near d A B := by
  intro i j; fin_cases i <;> fin_cases j <;> assumption

theorem abs_le_of_sq {a s : ℝ} (hs : 0 ≤ s) (h : a * a ≤ s * s) : |a| ≤ s := by
  rw [← abs_of_nonneg hs]; exact abs_le_abs_of_mul_self h
where
  abs_le_abs_of_mul_self {a b : ℝ} (h : a * a ≤ b * b) : |a| ≤ |b| := by
    rw [← sq, ← sq] at h; exact abs_le_abs_of_sq_le h
  abs_le_abs_of_sq_le {a b : ℝ} (h : a ^ 2 ≤ b ^ 2) : |a| ≤ |b| := sq_le_sq.mp h

set_option maxHeartbeats 1000000 in
/-- Close to the poles the result is off by at most twice the sine of the polar angle. -/
theorem extract_small (h : Eqs R) (hs : sinb R ≤ 1 / 1000000) :
    Near (2 * sinb R) (makeEuler (extractEuler R).1 (extractEuler R).2.1 (extractEuler R).2.2) R := by
  have hs0 : 0 ≤ sinb R := Real.sqrt_nonneg _
  have hss := sinb_sq h
  have hb := atan2_cos_sin (x := R 2 2) (y := sinb R) one_pos (by linarith)
  have b02 : |R 0 2| ≤ sinb R := abs_le_of_sq hs0 (by nlinarith [h.c22, mul_self_nonneg (R 1 2)])
  have b12 : |R 1 2| ≤ sinb R := abs_le_of_sq hs0 (by nlinarith [h.c22, mul_self_nonneg (R 0 2)])
  have b20 : |R 2 0| ≤ sinb R := abs_le_of_sq hs0 (by nlinarith [h.r22, mul_self_nonneg (R 2 1)])
  have b21 : |R 2 1| ≤ sinb R := abs_le_of_sq hs0 (by nlinarith [h.r22, mul_self_nonneg (R 2 0)])
  have hsq : sinb R * sinb R ≤ sinb R / 1000000 := by nlinarith
  have hcut : |sinb R| ≤ 1 / 1000000 := by rw [abs_of_nonneg hs0]; exact hs
  by_cases hc : 0 < R 2 2
  · have he : extractEuler R = (0, atan2 (sinb R) (R 2 2), atan2 (R 1 0) (R 0 0)) := by
      unfold extractEuler
      dsimp only
      rw [if_pos hcut, if_pos hc]
    have hwpos : 0 < R 0 0 * R 0 0 + R 1 0 * R 1 0 := by
      have := abs_mul_le b20 b20
      have h1 := le_abs_self (R 2 0 * R 2 0)
      nlinarith [h.c00]
    obtain ⟨w, hw⟩ : ∃ w, w = √(R 0 0 * R 0 0 + R 1 0 * R 1 0) := ⟨_, rfl⟩
    have hw0 : 0 < w := by rw [hw]; exact Real.sqrt_pos.mpr hwpos
    have hww : R 0 0 * R 0 0 + R 1 0 * R 1 0 = w * w := by rw [hw, Real.mul_self_sqrt hwpos.le]
    have hg := atan2_cos_sin (x := R 0 0) (y := R 1 0) hw0 hww
    rw [he]
    unfold makeEuler
    dsimp only
    rw [hb.1, hb.2, hg.1, hg.2, Real.cos_zero, Real.sin_zero]
    obtain ⟨p, hp⟩ : ∃ p, p = R 0 0 / w := ⟨_, rfl⟩
    obtain ⟨q, hq⟩ : ∃ q, q = R 1 0 / w := ⟨_, rfl⟩
    rw [← hp, ← hq]
    have ep : R 0 0 = p * w := by rw [hp]; field_simp
    have eq : R 1 0 = q * w := by rw [hq]; field_simp
    have hpq : p * p + q * q = 1 := by
      have : (p * p + q * q) * (w * w) = 1 * (w * w) := by
        have h9 := hww; rw [ep, eq] at h9; linear_combination h9
      exact mul_right_cancel₀ (by positivity) this
    have bp : |p| ≤ 1 := abs_le_of_sq zero_le_one (by nlinarith [mul_self_nonneg q])
    have bq : |q| ≤ 1 := abs_le_of_sq zero_le_one (by nlinarith [mul_self_nonneg p])
    have hw1 : w ≤ 1 :=
      (le_abs_self w).trans (abs_le_of_sq zero_le_one (by linarith [h.c00, mul_self_nonneg (R 2 0)]))
    have hcw : R 2 2 ≤ w := by
      have := abs_mul_le b20 b20
      have h1 := le_abs_self (R 2 0 * R 2 0)
      exact (le_abs_self _).trans (abs_le_of_sq hw0.le (by linarith [h.c00]))
    have k01 := h.k01
    have k11 := h.k11
    rw [eq] at k01
    rw [ep] at k11
    clear hb hg he
    generalize sinb R = s at *
    generalize hcd : R 2 2 = c at *
    have h1c : 1 - c ≤ s * s := by nlinarith
    have p22 := abs_mul_le b12 b20
    have p02 := abs_mul_le b02 b20
    apply near_ext <;>
      simp only [of_apply, cons_val', cons_val_zero, cons_val_one, cons_val, div_one, one_mul, zero_mul, sub_zero, neg_zero,
        zero_add, neg_mul]
    · rw [ep, show c * p - p * w = p * (c - w) by ring]
      have := abs_mul_le bp (show |c - w| ≤ s * s by rw [abs_le]; constructor <;> linarith)
      linarith
    · rw [k01, show -(c * q) - (R 1 2 * R 2 0 - q * w * c) = q * (c * w - c) - R 1 2 * R 2 0 by ring]
      have h3 := abs_mul_le bq (show |c * w - c| ≤ s * s by rw [abs_le]; constructor <;> nlinarith)
      have h4 := abs_sub_le2 h3 p22
      linarith
    · have := abs_sub_le2 (le_of_eq (abs_of_nonneg hs0)) b02
      linarith
    · rw [eq, show q - q * w = q * (1 - w) by ring]
      have := abs_mul_le bq (show |1 - w| ≤ s * s by rw [abs_le]; constructor <;> linarith)
      linarith
    · rw [k11, show p - (p * w * c - R 0 2 * R 2 0) = p * (1 - w * c) - (-(R 0 2 * R 2 0)) by ring]
      have h3 := abs_mul_le bp (show |1 - w * c| ≤ s * s by rw [abs_le]; constructor <;> nlinarith)
      have h4 := abs_sub_le2 h3 ((abs_neg (R 0 2 * R 2 0)).le.trans p02)
      linarith
    · rw [zero_sub, abs_neg]; linarith
    · have h3 := abs_mul_le (le_of_eq (abs_of_nonneg hs0)) bp
      have h4 := abs_sub_le2 ((abs_neg (s * p)).le.trans h3) b20
      linarith
    · have h3 := abs_mul_le (le_of_eq (abs_of_nonneg hs0)) bq
      have h4 := abs_sub_le2 h3 b21
      linarith
    · rw [hcd, sub_self, abs_zero]; linarith
  · have hc' : R 2 2 ≤ 0 := not_lt.mp hc
    have he : extractEuler R = (0, atan2 (sinb R) (R 2 2), atan2 (R 0 1) (-R 0 0)) := by
      unfold extractEuler
      dsimp only
      rw [if_pos hcut, if_neg hc]
    have hwpos : 0 < R 0 0 * R 0 0 + R 0 1 * R 0 1 := by
      have := abs_mul_le b02 b02
      have h1 := le_abs_self (R 0 2 * R 0 2)
      nlinarith [h.r00]
    obtain ⟨w, hw⟩ : ∃ w, w = √(R 0 0 * R 0 0 + R 0 1 * R 0 1) := ⟨_, rfl⟩
    have hw0 : 0 < w := by rw [hw]; exact Real.sqrt_pos.mpr hwpos
    have hww : R 0 0 * R 0 0 + R 0 1 * R 0 1 = w * w := by rw [hw, Real.mul_self_sqrt hwpos.le]
    have hg := atan2_cos_sin (x := -R 0 0) (y := R 0 1) hw0 (by linarith)
    rw [he]
    unfold makeEuler
    dsimp only
    rw [hb.1, hb.2, hg.1, hg.2, Real.cos_zero, Real.sin_zero]
    obtain ⟨p, hp⟩ : ∃ p, p = -R 0 0 / w := ⟨_, rfl⟩
    obtain ⟨q, hq⟩ : ∃ q, q = R 0 1 / w := ⟨_, rfl⟩
    rw [← hp, ← hq]
    have ep : R 0 0 = -(p * w) := by rw [hp]; field_simp
    have eq : R 0 1 = q * w := by rw [hq]; field_simp
    have hpq : p * p + q * q = 1 := by
      have : (p * p + q * q) * (w * w) = 1 * (w * w) := by
        have h9 := hww; rw [ep, eq] at h9; linear_combination h9
      exact mul_right_cancel₀ (by positivity) this
    have bp : |p| ≤ 1 := abs_le_of_sq zero_le_one (by nlinarith [mul_self_nonneg q])
    have bq : |q| ≤ 1 := abs_le_of_sq zero_le_one (by nlinarith [mul_self_nonneg p])
    have hw1 : w ≤ 1 :=
      (le_abs_self w).trans (abs_le_of_sq zero_le_one (by linarith [h.r00, mul_self_nonneg (R 0 2)]))
    have hcw : -R 2 2 ≤ w := by
      have := abs_mul_le b02 b02
      have h1 := le_abs_self (R 0 2 * R 0 2)
      exact (le_abs_self _).trans (abs_le_of_sq hw0.le (by linarith [h.r00]))
    have k10 := h.k10
    have k11 := h.k11
    rw [eq] at k10
    rw [ep] at k11
    clear hb hg he
    generalize sinb R = s at *
    generalize hcd : R 2 2 = c at *
    have h1c : 1 + c ≤ s * s := by nlinarith
    have p22 := abs_mul_le b02 b21
    have p02 := abs_mul_le b02 b20
    apply near_ext <;>
      simp only [of_apply, cons_val', cons_val_zero, cons_val_one, cons_val, div_one, one_mul, zero_mul, sub_zero, neg_zero,
        zero_add, neg_mul]
    · rw [ep, show c * p - -(p * w) = p * (c + w) by ring]
      have := abs_mul_le bp (show |c + w| ≤ s * s by rw [abs_le]; constructor <;> linarith)
      linarith
    · rw [eq, show -(c * q) - q * w = -(q * (c + w)) by ring, abs_neg]
      have := abs_mul_le bq (show |c + w| ≤ s * s by rw [abs_le]; constructor <;> linarith)
      linarith
    · have := abs_sub_le2 (le_of_eq (abs_of_nonneg hs0)) b02
      linarith
    · rw [k10, show q - (R 0 2 * R 2 1 - q * w * c) = q * (1 + w * c) - R 0 2 * R 2 1 by ring]
      have h3 := abs_mul_le bq (show |1 + w * c| ≤ s * s by rw [abs_le]; constructor <;> nlinarith)
      have h4 := abs_sub_le2 h3 p22
      linarith
    · rw [k11, show p - (-(p * w) * c - R 0 2 * R 2 0) = p * (1 + w * c) - (-(R 0 2 * R 2 0)) by ring]
      have h3 := abs_mul_le bp (show |1 + w * c| ≤ s * s by rw [abs_le]; constructor <;> nlinarith)
      have h4 := abs_sub_le2 h3 ((abs_neg (R 0 2 * R 2 0)).le.trans p02)
      linarith
    · rw [zero_sub, abs_neg]; linarith
    · have h3 := abs_mul_le (le_of_eq (abs_of_nonneg hs0)) bp
      have h4 := abs_sub_le2 ((abs_neg (s * p)).le.trans h3) b20
      linarith
    · have h3 := abs_mul_le (le_of_eq (abs_of_nonneg hs0)) bq
      have h4 := abs_sub_le2 h3 b21
      linarith
    · rw [hcd, sub_self, abs_zero]; linarith

end extract

end Verif.Rot
