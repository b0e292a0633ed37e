import Verif.Util.Rot

/-!
# Euler angles and axis-angle: the theorems (C51)
-/

namespace Verif.Rot

open Matrix

/-- C51: Euler extraction recovers every proper rotation exactly, except when the polar angle is within `1e-6` of (but not at) a
pole; there the reconstructed matrix differs by at most `2e-6` in every entry. -/
theorem C51_extract_partial {R : M3} (h : Proper R) :
    ((1 / 1000000 < √(R 0 2 ^ 2 + R 1 2 ^ 2) ∨ (R 0 2 = 0 ∧ R 1 2 = 0)) →
      makeEuler (extractEuler R).1 (extractEuler R).2.1 (extractEuler R).2.2 = R) ∧
    Near (2 / 1000000) (makeEuler (extractEuler R).1 (extractEuler R).2.1 (extractEuler R).2.2) R := by
  have hE := h.eqs
  have e : sinb R = √(R 0 2 ^ 2 + R 1 2 ^ 2) := by unfold sinb; congr 1; ring
  constructor
  · rintro (hs | ⟨h1, h2⟩)
    · exact extract_generic hE (by rw [e]; exact hs)
    · have hz : sinb R = 0 := by rw [e, h1, h2]; simp
      have := extract_small hE (by rw [hz]; norm_num)
      ext i j
      have hij := this i j
      rw [hz, mul_zero] at hij
      have := abs_nonpos_iff.mp hij
      linarith
  · by_cases hs : 1 / 1000000 < sinb R
    · rw [extract_generic hE hs]
      intro i j
      rw [sub_self, abs_zero]; norm_num
    · intro i j
      have := extract_small hE (not_lt.mp hs) i j
      have := not_lt.mp hs
      linarith

/-- C51: the extracted polar angle lies in `[0,π]` and the other two in `(-π,π]`; near the poles `α = 0` as documented. -/
theorem C51_extract_range (R : M3) :
    0 ≤ (extractEuler R).2.1 ∧ (extractEuler R).2.1 ≤ Real.pi ∧
    -Real.pi < (extractEuler R).1 ∧ (extractEuler R).1 ≤ Real.pi ∧
    -Real.pi < (extractEuler R).2.2 ∧ (extractEuler R).2.2 ≤ Real.pi ∧
    (√(R 0 2 ^ 2 + R 1 2 ^ 2) ≤ 1 / 1000000 → (extractEuler R).1 = 0) := by
  have e : sinb R = √(R 0 2 ^ 2 + R 1 2 ^ 2) := by unfold sinb; congr 1; ring
  have hpi := Real.pi_pos
  have r : ∀ x y : ℝ, -Real.pi < atan2 y x ∧ atan2 y x ≤ Real.pi := fun x y => ⟨Complex.neg_pi_lt_arg _, Complex.arg_le_pi _⟩
  have b : 0 ≤ atan2 (sinb R) (R 2 2) := Complex.arg_nonneg_iff.mpr (Real.sqrt_nonneg _)
  rw [← e]
  have hn : 0 ≤ sinb R := Real.sqrt_nonneg _
  unfold extractEuler
  dsimp only
  split_ifs with h1 h2
  · exact ⟨b, (r _ _).2, by linarith, hpi.le, (r _ _).1, (r _ _).2, fun _ => rfl⟩
  · exact ⟨b, (r _ _).2, by linarith, hpi.le, (r _ _).1, (r _ _).2, fun _ => rfl⟩
  · refine ⟨b, (r _ _).2, (r _ _).1, (r _ _).2, (r _ _).1, (r _ _).2, fun h => absurd ?_ h1⟩
    rw [abs_of_nonneg hn]; exact h

/-- C51, finding: the recovery is really inexact near the poles: for the rotation with `α = π`, `sin β = 5e-7`, `γ = 0` the entry
`(0,2)` comes back with the opposite sign. -/
theorem C51_extract_inexact : ∃ R : M3, Proper R ∧ R 0 2 = -(1 / 2000000) ∧
    makeEuler (extractEuler R).1 (extractEuler R).2.1 (extractEuler R).2.2 0 2 = 1 / 2000000 := by
  obtain ⟨b, hb⟩ : ∃ b, Real.sin b = 1 / 2000000 := ⟨Real.arcsin (1 / 2000000), Real.sin_arcsin (by norm_num) (by norm_num)⟩
  refine ⟨makeEuler Real.pi b 0, (C51_euler_proper _ _ _).1, ?_, ?_⟩
  · unfold makeEuler; simp [hb]
  · have hE := (C51_euler_proper Real.pi b 0).1.eqs
    have h02 : makeEuler Real.pi b 0 0 2 = -(1 / 2000000) := by unfold makeEuler; simp [hb]
    have h12 : makeEuler Real.pi b 0 1 2 = 0 := by unfold makeEuler; simp
    set R := makeEuler Real.pi b 0
    have hs : sinb R = 1 / 2000000 := by
      unfold sinb
      rw [h02, h12, show -(1 / 2000000 : ℝ) * -(1 / 2000000) + 0 * 0 = (1 / 2000000) * (1 / 2000000) by ring,
        Real.sqrt_mul_self (by norm_num)]
    have hss := sinb_sq hE
    have hbb := atan2_cos_sin (x := R 2 2) (y := sinb R) one_pos (by linarith)
    have h1 : (extractEuler R).1 = 0 ∧ (extractEuler R).2.1 = atan2 (sinb R) (R 2 2) := by
      unfold extractEuler
      dsimp only
      rw [if_pos (show |sinb R| ≤ 1 / 1000000 by rw [hs]; norm_num [abs_of_pos])]
      split_ifs <;> exact ⟨rfl, rfl⟩
    unfold makeEuler
    rw [h1.1, h1.2]
    simp only [of_apply, cons_val', cons_val_zero, cons_val]
    rw [hbb.2, hs, Real.cos_zero]
    norm_num

/-! ## Axis and angle -/

/-- C51: rotating about a unit vector gives a proper rotation that fixes the vector, with trace `1 + 2 cos(angle)`. -/
theorem C51_axis_proper (a : V3) (angle : ℝ) (ha : a.x ^ 2 + a.y ^ 2 + a.z ^ 2 = 1) :
    Proper (makeAxis a angle) ∧ makeAxis a angle *ᵥ ![a.x, a.y, a.z] = ![a.x, a.y, a.z] ∧
      makeAxis a angle 0 0 + makeAxis a angle 1 1 + makeAxis a angle 2 2 = 1 + 2 * Real.cos angle := by
  have hs := Real.sin_sq_add_cos_sq angle
  obtain ⟨x, y, z⟩ := a
  dsimp only at ha
  unfold makeAxis
  dsimp only
  generalize Real.sin angle = s at *
  generalize Real.cos angle = c at *
  have hs' : s ^ 2 = 1 - c ^ 2 := by linarith
  have hz : z ^ 2 = 1 - x ^ 2 - y ^ 2 := by linarith
  refine ⟨⟨?_, ?_⟩, ?_, ?_⟩
  · apply ext9 <;> simp [mul_apply, Fin.sum_univ_three] <;> clear hs' hz <;> grind
  · rw [det_fin_three]; simp
    clear hs' hz
    grind
  · ext i; fin_cases i <;> simp [mulVec, dotProduct, Fin.sum_univ_three] <;> clear hs' hz <;> grind
  · simp
    linear_combination (1 - c) * ha

section axis

variable {R : M3}

/-- The symmetric part of a proper rotation is determined by its trace and its antisymmetric part. -/
theorem sym_part (h : Eqs R) : ∀ i j, (R i j + R j i) * (1 + (R 0 0 + R 1 1 + R 2 2)) =
    (if i = j then (R 0 0 + R 1 1 + R 2 2) ^ 2 - 1 else 0) +
      ![R 2 1 - R 1 2, R 0 2 - R 2 0, R 1 0 - R 0 1] i * ![R 2 1 - R 1 2, R 0 2 - R 2 0, R 1 0 - R 0 1] j := by
  obtain ⟨r00, r11, r22, r01, r02, r12, c00, c11, c22, c01, c02, c12, k00, k01, k02, k10, k11, k12, k20, k21, k22⟩ := h
  intro i j
  fin_cases i <;> fin_cases j <;> simp <;> linarith

/-- length of the antisymmetric part -/
theorem asym_len (h : Eqs R) : (R 2 1 - R 1 2) * (R 2 1 - R 1 2) + (R 0 2 - R 2 0) * (R 0 2 - R 2 0) +
    (R 1 0 - R 0 1) * (R 1 0 - R 0 1) = 4 - (R 0 0 + R 1 1 + R 2 2 - 1) ^ 2 := by
  have a := sym_part h 0 0
  have b := sym_part h 1 1
  have c := sym_part h 2 2
  simp at a b c
  linarith

theorem axis_generic (h : Eqs R) (hs : 0 < √((R 2 1 - R 1 2) * (R 2 1 - R 1 2) + (R 0 2 - R 2 0) * (R 0 2 - R 2 0) +
    (R 1 0 - R 0 1) * (R 1 0 - R 0 1))) : ∃ a θ, toAxisAngle R = some (a, θ) ∧ a.x ^ 2 + a.y ^ 2 + a.z ^ 2 = 1 ∧
      0 < θ ∧ θ < Real.pi ∧ makeAxis a θ = R := by
  have hlen := asym_len h
  refine ⟨_, _, by unfold toAxisAngle; dsimp only; rw [if_pos hs], ?_⟩
  dsimp only
  have hq := Real.sqrt_pos.mp hs
  have hss := Real.mul_self_sqrt hq.le
  set s2 := √((R 2 1 - R 1 2) * (R 2 1 - R 1 2) + (R 0 2 - R 2 0) * (R 0 2 - R 2 0) +
    (R 1 0 - R 0 1) * (R 1 0 - R 0 1)) with hs2
  have hat := atan2_cos_sin (x := R 0 0 + R 1 1 + R 2 2 - 1) (y := s2) two_pos (by rw [hss, hlen]; ring)
  have hne : s2 ≠ 0 := hs.ne'
  have h4 : s2 * s2 = (3 - (R 0 0 + R 1 1 + R 2 2)) * (1 + (R 0 0 + R 1 1 + R 2 2)) := by rw [hss, hlen]; ring
  refine ⟨?_, ?_, ?_, ?_⟩
  · field_simp
    rw [sq s2, hss]; ring
  · have h0 : 0 ≤ atan2 s2 (R 0 0 + R 1 1 + R 2 2 - 1) := Complex.arg_nonneg_iff.mpr hs.le
    rcases h0.eq_or_lt with he | he
    · rw [← he, Real.sin_zero] at hat
      have := hat.2; have : 0 < s2 / 2 := by positivity
      linarith
    · exact he
  · have h0 : atan2 s2 (R 0 0 + R 1 1 + R 2 2 - 1) ≤ Real.pi := Complex.arg_le_pi _
    rcases h0.eq_or_lt with he | he
    · rw [he, Real.sin_pi] at hat
      have := hat.2; have : 0 < s2 / 2 := by positivity
      linarith
    · exact he
  · have sp := sym_part h
    have e00 := sp 0 0; have e01 := sp 0 1; have e02 := sp 0 2
    have e11 := sp 1 1; have e12 := sp 1 2; have e22 := sp 2 2
    simp at e00 e01 e02 e11 e12 e22
    clear sp
    have ht : (3 - (R 0 0 + R 1 1 + R 2 2)) ≠ 0 := by intro h0; rw [h0, zero_mul] at h4; exact hne (mul_self_eq_zero.mp h4)
    have key : ∀ u v : ℝ, u * (1 / s2) * (v * (1 / s2)) * (1 - (R 0 0 + R 1 1 + R 2 2 - 1) / 2) =
        u * v / (2 * (1 + (R 0 0 + R 1 1 + R 2 2))) := by
      intro u v
      have ht1 : (1 + (R 0 0 + R 1 1 + R 2 2)) ≠ 0 := by intro h0; rw [h0, mul_zero] at h4; exact hne (mul_self_eq_zero.mp h4)
      have : u * (1 / s2) * (v * (1 / s2)) = u * v / (s2 * s2) := by field_simp
      rw [this, h4]
      field_simp
      ring
    have ht1 : (1 + (R 0 0 + R 1 1 + R 2 2)) ≠ 0 := by intro h0; rw [h0, mul_zero] at h4; exact hne (mul_self_eq_zero.mp h4)
    unfold makeAxis
    dsimp only
    rw [hat.1, hat.2]
    have sk : ∀ u : ℝ, u * (1 / s2) * (s2 / 2) = u / 2 := by intro u; field_simp
    simp only [key, sk]
    generalize R 0 0 + R 1 1 + R 2 2 = t at *
    apply ext9 <;> simp only [of_apply, cons_val', cons_val_zero, cons_val_one, cons_val] <;> field_simp <;> linarith

theorem half_root {d : ℝ} (h : -1 ≤ d) : (1 / 2 * √(d * 2 + 2)) * (1 / 2 * √(d * 2 + 2)) = (1 + d) / 2 := by
  have := Real.mul_self_sqrt (show 0 ≤ d * 2 + 2 by linarith)
  linear_combination (1 / 4) * this

/-- Half turns: either axis and angle reproduce the matrix, or the code divides by zero; the latter exactly when `entry[0][0]` is
-1 and the other two diagonal elements are equal. -/
theorem halfTurn_spec (h : Eqs R) (hsym : R 2 1 = R 1 2 ∧ R 0 2 = R 2 0 ∧ R 1 0 = R 0 1) (ht : R 0 0 + R 1 1 + R 2 2 = -1) :
    (∃ a, halfTurn R = some (a, Real.pi) ∧ a.x ^ 2 + a.y ^ 2 + a.z ^ 2 = 1 ∧ makeAxis a Real.pi = R ∧
      ¬(R 0 0 = -1 ∧ R 1 1 = R 2 2)) ∨
    (halfTurn R = none ∧ R 0 0 = -1 ∧ R 1 1 = R 2 2) := by
  obtain ⟨s1, s2, s3⟩ := hsym
  obtain ⟨r00, r11, r22, r01, r02, r12, c00, c11, c22, c01, c02, c12, k00, k01, k02, k10, k11, k12, k20, k21, k22⟩ := h
  simp only [s1, ← s2, s3] at r00 r11 r22 r01 r02 r12 c00 c11 c22 c01 c02 c12 k00 k01 k02 k10 k11 k12 k20 k21 k22
  have P01 : R 0 1 * R 0 1 = (1 + R 0 0) * (1 + R 1 1) := by linarith
  have P02 : R 0 2 * R 0 2 = (1 + R 0 0) * (1 + R 2 2) := by linarith
  have P12 : R 1 2 * R 1 2 = (1 + R 1 1) * (1 + R 2 2) := by linarith
  have Q0 : R 0 1 * R 0 2 = R 1 2 * (1 + R 0 0) := by linarith
  have Q1 : R 0 1 * R 1 2 = R 0 2 * (1 + R 1 1) := by linarith
  have Q2 : R 0 2 * R 1 2 = R 0 1 * (1 + R 2 2) := by linarith
  have b0 : -1 ≤ R 0 0 :=
    neg_le_of_abs_le (abs_le_of_sq zero_le_one (by linarith [mul_self_nonneg (R 0 1), mul_self_nonneg (R 0 2)]))
  have b1 : -1 ≤ R 1 1 :=
    neg_le_of_abs_le (abs_le_of_sq zero_le_one (by linarith [mul_self_nonneg (R 0 1), mul_self_nonneg (R 1 2)]))
  have b2 : -1 ≤ R 2 2 :=
    neg_le_of_abs_le (abs_le_of_sq zero_le_one (by linarith [mul_self_nonneg (R 0 2), mul_self_nonneg (R 1 2)]))
  clear r00 r11 r22 r01 r02 r12 c00 c11 c22 c01 c02 c12 k00 k01 k02 k10 k11 k12 k20 k21 k22
  unfold halfTurn
  dsimp only
  rw [show R 2 2 - R 0 0 - R 1 1 + 1 = R 2 2 * 2 + 2 by linarith, show R 1 1 - R 0 0 - R 2 2 + 1 = R 1 1 * 2 + 2 by linarith,
    show R 0 0 - R 1 1 - R 2 2 + 1 = R 0 0 * 2 + 2 by linarith]
  have mk : ∀ a : V3, 2 * a.x * a.x = 1 + R 0 0 → 2 * a.y * a.y = 1 + R 1 1 → 2 * a.z * a.z = 1 + R 2 2 →
      2 * a.x * a.y = R 0 1 → 2 * a.x * a.z = R 0 2 → 2 * a.y * a.z = R 1 2 →
      a.x ^ 2 + a.y ^ 2 + a.z ^ 2 = 1 ∧ makeAxis a Real.pi = R := by
    intro a h1 h2 h3 h4 h5 h6
    refine ⟨by linarith, ?_⟩
    unfold makeAxis
    rw [Real.sin_pi, Real.cos_pi]
    apply ext9 <;> simp <;> linarith
  by_cases hc2 : R 0 0 < R 2 2 ∧ R 1 1 < R 2 2
  · have hz := half_root b2
    rw [if_pos hc2]
    generalize 1 / 2 * √(R 2 2 * 2 + 2) = z at *
    have hz0 : z ≠ 0 := by rintro rfl; linarith [hc2.1]
    left
    rw [if_neg hz0]
    have e : ∀ u v : ℝ, 2 * (1 / 2 / z * u) * (1 / 2 / z * v) = u * v / (1 + R 2 2) := by
      intro u v
      have : 1 + R 2 2 = 2 * (z * z) := by linarith
      rw [this]; field_simp
    have hp : 1 + R 2 2 ≠ 0 := by intro h0; apply hz0; rw [h0] at hz; exact mul_self_eq_zero.mp (by linarith)
    refine ⟨_, rfl, ?_⟩
    obtain ⟨m1, m2⟩ := mk ⟨1 / 2 / z * R 0 2, 1 / 2 / z * R 1 2, z⟩ (by rw [e, P02]; field_simp) (by rw [e, P12]; field_simp)
      (by dsimp only; linarith) (by rw [e, Q2]; field_simp) (by dsimp only; field_simp) (by dsimp only; field_simp)
    exact ⟨m1, m2, fun hh => by linarith [hc2.2, hh.2]⟩
  · rw [if_neg hc2]
    by_cases hc1 : R 0 0 < R 1 1 ∧ R 2 2 < R 1 1
    · have hz := half_root b1
      rw [if_pos hc1]
      generalize 1 / 2 * √(R 1 1 * 2 + 2) = z at *
      have hz0 : z ≠ 0 := by rintro rfl; linarith [hc1.1]
      left
      rw [if_neg hz0]
      have e : ∀ u v : ℝ, 2 * (1 / 2 / z * u) * (1 / 2 / z * v) = u * v / (1 + R 1 1) := by
        intro u v
        have : 1 + R 1 1 = 2 * (z * z) := by linarith
        rw [this]; field_simp
      have hp : 1 + R 1 1 ≠ 0 := by intro h0; apply hz0; rw [h0] at hz; exact mul_self_eq_zero.mp (by linarith)
      refine ⟨_, rfl, ?_⟩
      obtain ⟨m1, m2⟩ := mk ⟨1 / 2 / z * R 0 1, z, 1 / 2 / z * R 1 2⟩ (by rw [e, P01]; field_simp)
        (by dsimp only; linarith) (by rw [e, P12]; field_simp) (by dsimp only; field_simp) (by rw [e, Q1]; field_simp)
        (by dsimp only; field_simp)
      exact ⟨m1, m2, fun hh => by linarith [hc1.2, hh.2]⟩
    · rw [if_neg hc1]
      have hz := half_root b0
      generalize 1 / 2 * √(R 0 0 * 2 + 2) = z at *
      by_cases hz0 : z = 0
      · right
        have h00 : R 0 0 = -1 := by rw [hz0] at hz; linarith
        refine ⟨by rw [if_pos hz0], h00, ?_⟩
        by_contra hne
        rcases lt_or_gt_of_ne hne with hl | hl
        · apply hc2; constructor <;> linarith
        · apply hc1; constructor <;> linarith
      · left
        rw [if_neg hz0]
        have e : ∀ u v : ℝ, 2 * (1 / 2 / z * u) * (1 / 2 / z * v) = u * v / (1 + R 0 0) := by
          intro u v
          have : 1 + R 0 0 = 2 * (z * z) := by linarith
          rw [this]; field_simp
        have hp : 1 + R 0 0 ≠ 0 := by intro h0; apply hz0; rw [h0] at hz; exact mul_self_eq_zero.mp (by linarith)
        refine ⟨_, rfl, ?_⟩
        obtain ⟨m1, m2⟩ := mk ⟨z, 1 / 2 / z * R 0 1, 1 / 2 / z * R 0 2⟩ (by dsimp only; linarith) (by rw [e, P01]; field_simp)
          (by rw [e, P02]; field_simp) (by dsimp only; field_simp) (by dsimp only; field_simp) (by rw [e, Q0]; field_simp)
        exact ⟨m1, m2, fun hh => hp (by linarith [hh.1])⟩

/-- C51: for every proper rotation, either `toAxisAngle` gives a unit axis and an angle in `[0,π]` from which
`Make_Axis_Rotation_Transform` rebuilds the matrix exactly, or the matrix is one of the two half turns about `(0,1,±1)/√2` (finding:
there the code divides by zero, although the entries of the matrix are 0, 1 and -1). -/
theorem C51_axis_roundtrip (h : Proper R) :
    (∃ a θ, toAxisAngle R = some (a, θ) ∧ a.x ^ 2 + a.y ^ 2 + a.z ^ 2 = 1 ∧ 0 ≤ θ ∧ θ ≤ Real.pi ∧ makeAxis a θ = R) ∨
    (toAxisAngle R = none ∧ (R = !![-1, 0, 0; 0, 0, 1; 0, 1, 0] ∨ R = !![-1, 0, 0; 0, 0, -1; 0, -1, 0])) := by
  have hE := h.eqs
  have hlen := asym_len hE
  by_cases hs : 0 < √((R 2 1 - R 1 2) * (R 2 1 - R 1 2) + (R 0 2 - R 2 0) * (R 0 2 - R 2 0) +
    (R 1 0 - R 0 1) * (R 1 0 - R 0 1))
  · obtain ⟨a, θ, h1, h2, h3, h4, h5⟩ := axis_generic hE hs
    exact Or.inl ⟨a, θ, h1, h2, h3.le, h4.le, h5⟩
  · have hz : (R 2 1 - R 1 2) * (R 2 1 - R 1 2) + (R 0 2 - R 2 0) * (R 0 2 - R 2 0) + (R 1 0 - R 0 1) * (R 1 0 - R 0 1) ≤ 0 := by
      by_contra hc
      exact hs (Real.sqrt_pos.mpr (not_le.mp hc))
    have q1 := mul_self_nonneg (R 2 1 - R 1 2)
    have q2 := mul_self_nonneg (R 0 2 - R 2 0)
    have q3 := mul_self_nonneg (R 1 0 - R 0 1)
    have s1 : R 2 1 = R 1 2 := by have := mul_self_eq_zero.mp (le_antisymm (by linarith) q1); linarith
    have s2 : R 0 2 = R 2 0 := by have := mul_self_eq_zero.mp (le_antisymm (by linarith) q2); linarith
    have s3 : R 1 0 = R 0 1 := by have := mul_self_eq_zero.mp (le_antisymm (by linarith) q3); linarith
    have hq : (R 0 0 + R 1 1 + R 2 2 - 3) * (R 0 0 + R 1 1 + R 2 2 + 1) = 0 := by
      rw [s1, s2, s3] at hlen
      linarith
    have hun : toAxisAngle R = if 2 ≤ R 0 0 + R 1 1 + R 2 2 - 1 then some (⟨1, 0, 0⟩, 0) else halfTurn R := by
      unfold toAxisAngle
      dsimp only
      rw [if_neg hs]
    rcases mul_eq_zero.mp hq with ht | ht
    · left
      refine ⟨⟨1, 0, 0⟩, 0, by rw [hun, if_pos (by linarith)], by norm_num, le_rfl, Real.pi_pos.le, ?_⟩
      have e := hE
      have l0 : R 0 0 ≤ 1 :=
        le_of_abs_le (abs_le_of_sq zero_le_one (by linarith [e.r00, mul_self_nonneg (R 0 1), mul_self_nonneg (R 0 2)]))
      have l1 : R 1 1 ≤ 1 :=
        le_of_abs_le (abs_le_of_sq zero_le_one (by linarith [e.r11, mul_self_nonneg (R 1 0), mul_self_nonneg (R 1 2)]))
      have l2 : R 2 2 ≤ 1 :=
        le_of_abs_le (abs_le_of_sq zero_le_one (by linarith [e.r22, mul_self_nonneg (R 2 0), mul_self_nonneg (R 2 1)]))
      have d0 : R 0 0 = 1 := by linarith
      have d1 : R 1 1 = 1 := by linarith
      have d2 : R 2 2 = 1 := by linarith
      have r0 := e.r00; have r1 := e.r11
      rw [d0] at r0; rw [d1] at r1
      have z01 : R 0 1 = 0 := mul_self_eq_zero.mp (by linarith [mul_self_nonneg (R 0 1), mul_self_nonneg (R 0 2)])
      have z02 : R 0 2 = 0 := mul_self_eq_zero.mp (by linarith [mul_self_nonneg (R 0 1), mul_self_nonneg (R 0 2)])
      have z12 : R 1 2 = 0 := mul_self_eq_zero.mp (by linarith [mul_self_nonneg (R 1 0), mul_self_nonneg (R 1 2)])
      unfold makeAxis
      rw [Real.sin_zero, Real.cos_zero]
      apply ext9 <;> simp <;> linarith
    · rw [hun, if_neg (by linarith)]
      rcases halfTurn_spec hE ⟨s1, s2, s3⟩ (by linarith) with ⟨a, h1, h2, h3, _⟩ | ⟨h1, h2, h3⟩
      · exact Or.inl ⟨a, Real.pi, h1, h2, Real.pi_pos.le, le_rfl, h3⟩
      · right
        refine ⟨h1, ?_⟩
        have d1 : R 1 1 = 0 := by linarith
        have d2 : R 2 2 = 0 := by linarith
        have r0 := hE.r00; have r1 := hE.r11
        rw [h2] at r0; rw [d1] at r1
        have z01 : R 0 1 = 0 := mul_self_eq_zero.mp (by linarith [mul_self_nonneg (R 0 1), mul_self_nonneg (R 0 2)])
        have z02 : R 0 2 = 0 := mul_self_eq_zero.mp (by linarith [mul_self_nonneg (R 0 1), mul_self_nonneg (R 0 2)])
        have z12 : (R 1 2 - 1) * (R 1 2 + 1) = 0 := by rw [s3, z01] at r1; linarith
        rcases mul_eq_zero.mp z12 with hz | hz
        · left; apply ext9 <;> simp <;> linarith
        · right; apply ext9 <;> simp <;> linarith

/-- C51, finding: both exceptional matrices are proper rotations and the code does divide by zero for them. -/
theorem C51_axis_division_by_zero : Proper (!![-1, 0, 0; 0, 0, 1; 0, 1, 0] : M3) ∧
    toAxisAngle !![-1, 0, 0; 0, 0, 1; 0, 1, 0] = none ∧ Proper (!![-1, 0, 0; 0, 0, -1; 0, -1, 0] : M3) ∧
    toAxisAngle !![-1, 0, 0; 0, 0, -1; 0, -1, 0] = none := by
  refine ⟨⟨?_, ?_⟩, ?_, ⟨?_, ?_⟩, ?_⟩
  · apply ext9 <;> simp [mul_apply, Fin.sum_univ_three]
  · rw [det_fin_three]; simp
  · simp [toAxisAngle, halfTurn]; norm_num
  · apply ext9 <;> simp [mul_apply, Fin.sum_univ_three]
  · rw [det_fin_three]; simp
  · simp [toAxisAngle, halfTurn]; norm_num

/-- The hypotheses are met in general position: a rotation by 1 rad about z. -/
example : ∃ a θ, toAxisAngle (Rz 1) = some (a, θ) ∧ makeAxis a θ = Rz 1 := by
  rcases C51_axis_roundtrip (proper_Rz 1) with ⟨a, θ, h1, _, _, _, h2⟩ | ⟨_, h | h⟩
  · exact ⟨a, θ, h1, h2⟩
  · have := congrFun (congrFun h 2) 2; simp [Rz] at this
  · have := congrFun (congrFun h 2) 2; simp [Rz] at this

end axis

/-- C51 as stated, for the extraction: every proper rotation is recovered. -/
def C51_Full : Prop :=
  ∀ R : M3, Proper R → makeEuler (extractEuler R).1 (extractEuler R).2.1 (extractEuler R).2.2 = R

theorem C51_full_refuted : ¬ C51_Full := by
  intro h
  obtain ⟨R, h1, h2, h3⟩ := C51_extract_inexact
  rw [h R h1, h2] at h3
  norm_num at h3

end Verif.Rot
