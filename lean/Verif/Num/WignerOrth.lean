import Verif.Num.WignerDeriv
import Mathlib.Analysis.SpecialFunctions.Integrals.Basic
import Mathlib.MeasureTheory.Integral.IntervalIntegral.IntegrationByParts

/-!
# Orthogonality of Wigner's functions of different degrees

`∫_0^π d^l_{m'm}(θ) d^k_{m'm}(θ) sin θ dθ = 2/(2l+1) δ_{lk}`.  Mathematics only: nothing here models code.
-/

namespace Verif.Num
open Finset Polynomial

theorem lower_term (l : ℕ) {m' m : ℤ} (h' : |m'| ≤ l) (h : |m| ≤ l) (t : ℝ) :
    gN l m' / gN l m * (((l : ℝ) + m) * (P (Real.cos (t / 2)) (Real.sin (t / 2)) ((l + m).toNat - 1) ((l - m).toNat + 1)).coeff (l + m').toNat)
      = dn l m * wignerD l m' (m - 1) t := by
  obtain ⟨a1, a2⟩ := abs_le.mp h
  have g0 := gN_pos l m
  have g0' := gN_pos l m'
  by_cases hb : m = -l
  · have : ((l : ℝ) + m) = 0 := by rw [hb]; push_cast; ring
    rw [this, hb, dn_bot]; ring
  · have hlt : -(l : ℤ) < m := by omega
    rw [wignerD_eq l h' (abs_le.mpr ⟨by omega, by omega⟩ : |m - 1| ≤ (l : ℤ)),
      show (l + (m - 1)).toNat = (l + m).toNat - 1 by omega, show (l - (m - 1)).toNat = (l - m).toNat + 1 by omega]
    have hg := gN_dn hlt a2
    have g1 := gN_pos l (m - 1)
    generalize (P (Real.cos (t / 2)) (Real.sin (t / 2)) ((l + m).toNat - 1) ((l - m).toNat + 1)).coeff (l + m').toNat = w
    field_simp
    linear_combination w * hg

theorem upper_term (l : ℕ) {m' m : ℤ} (h' : |m'| ≤ l) (h : |m| ≤ l) (t : ℝ) :
    gN l m' / gN l m * (((l : ℝ) - m) * (P (Real.cos (t / 2)) (Real.sin (t / 2)) ((l + m).toNat + 1) ((l - m).toNat - 1)).coeff (l + m').toNat)
      = up l m * wignerD l m' (m + 1) t := by
  obtain ⟨a1, a2⟩ := abs_le.mp h
  have g0 := gN_pos l m
  have g0' := gN_pos l m'
  by_cases hb : m = l
  · have : ((l : ℝ) - m) = 0 := by rw [hb]; push_cast; ring
    rw [this, hb, up_top]; ring
  · have hlt : m < l := by omega
    rw [wignerD_eq l h' (abs_le.mpr ⟨by omega, by omega⟩ : |m + 1| ≤ (l : ℤ)),
      show (l + (m + 1)).toNat = (l + m).toNat + 1 by omega, show (l - (m + 1)).toNat = (l - m).toNat - 1 by omega]
    have hg := gN_up a1 hlt
    have g1 := gN_pos l (m + 1)
    generalize (P (Real.cos (t / 2)) (Real.sin (t / 2)) ((l + m).toNat + 1) ((l - m).toNat - 1)).coeff (l + m').toNat = w
    field_simp
    linear_combination w * hg

/-- Euler's relation for the polynomials. -/
theorem P_euler {c s : ℝ} (h : c ^ 2 + s ^ 2 = 1) (u v k : ℕ) :
    (k : ℝ) * (P c s u v).coeff k = (u * c ^ 2 + v * s ^ 2) * (P c s u v).coeff k
      - c * s * (u * (P c s (u - 1) (v + 1)).coeff k + v * (P c s (u + 1) (v - 1)).coeff k) := by
  have hk : (k : ℝ) * (P c s u v).coeff k = (X * derivative (P c s u v)).coeff k := by
    rcases k with _ | k
    · simp
    · rw [coeff_X_mul, coeff_derivative]; push_cast; ring
  have hC : (C c : ℝ[X]) ^ 2 + C s ^ 2 = 1 := by rw [← C_pow, ← C_pow, ← C_add, h, C_1]
  have hp : X * derivative (P c s u v) = C (u * c ^ 2 + v * s ^ 2 : ℝ) * P c s u v
      - C (c * s) * (C (u : ℝ) * P c s (u - 1) (v + 1) + C (v : ℝ) * P c s (u + 1) (v - 1)) := by
    have hX : (X : ℝ[X]) = C c * (C c * X + C s) - C s * (C c - C s * X) := by linear_combination -(X : ℝ[X]) * hC
    unfold P
    rw [derivative_mul, derivative_pow, derivative_pow]
    simp only [derivative_add, derivative_sub, derivative_mul, derivative_C, derivative_X, zero_mul, zero_add, add_zero, mul_one, zero_sub,
      C_add, C_mul, C_pow]
    generalize hA : (C c * X + C s : ℝ[X]) = A at *
    generalize hB : (C c - C s * X : ℝ[X]) = B at *
    have e1 : C (u : ℝ) * A ^ u = C (u : ℝ) * (A ^ (u - 1) * A) := by
      rcases u with _ | u
      · simp
      · rw [Nat.add_sub_cancel, pow_succ]
    have e2 : C (v : ℝ) * B ^ v = C (v : ℝ) * (B ^ (v - 1) * B) := by
      rcases v with _ | v
      · simp
      · rw [Nat.add_sub_cancel, pow_succ]
    rw [pow_succ B v, pow_succ A u]
    have hX' := hX
    linear_combination (C (u : ℝ) * A ^ (u - 1) * C c * B ^ v - A ^ u * C (v : ℝ) * B ^ (v - 1) * C s) * hX' +
      (-C c ^ 2 * B ^ v) * e1 + (-C s ^ 2 * A ^ u) * e2
  rw [hk, hp]
  simp only [coeff_sub, coeff_C_mul, coeff_add]

/-- `(m cos θ - m') d_{m'm} = (sin θ / 2) (dn d_{m',m-1} + up d_{m',m+1})` -/
theorem wignerD_cot (l : ℕ) {m' m : ℤ} (h' : |m'| ≤ l) (h : |m| ≤ l) (t : ℝ) :
    (m * Real.cos t - m') * wignerD l m' m t =
      1 / 2 * Real.sin t * (dn l m * wignerD l m' (m - 1) t + up l m * wignerD l m' (m + 1) t) := by
  obtain ⟨a1, a2⟩ := abs_le.mp h
  obtain ⟨b1, b2⟩ := abs_le.mp h'
  have hcs : Real.cos (t / 2) ^ 2 + Real.sin (t / 2) ^ 2 = 1 := Real.cos_sq_add_sin_sq _
  have e := P_euler hcs (l + m).toNat (l - m).toNat (l + m').toNat
  have hA : (((l + m).toNat : ℕ) : ℝ) = l + m := by
    have : (((l + m).toNat : ℕ) : ℤ) = l + m := Int.toNat_of_nonneg (by omega)
    exact_mod_cast congrArg (fun z : ℤ => (z : ℝ)) this
  have hB : (((l - m).toNat : ℕ) : ℝ) = l - m := by
    have : (((l - m).toNat : ℕ) : ℤ) = l - m := Int.toNat_of_nonneg (by omega)
    exact_mod_cast congrArg (fun z : ℤ => (z : ℝ)) this
  have hD : (((l + m').toNat : ℕ) : ℝ) = l + m' := by
    have : (((l + m').toNat : ℕ) : ℤ) = l + m' := Int.toNat_of_nonneg (by omega)
    exact_mod_cast congrArg (fun z : ℤ => (z : ℝ)) this
  rw [hA, hB, hD] at e
  rw [← lower_term l h' h t, ← upper_term l h' h t, wignerD_eq l h' h t, ← cos_half_sq t,
    show Real.sin t = 2 * Real.sin (t / 2) * Real.cos (t / 2) by rw [← Real.sin_two_mul, mul_div_cancel₀ _ two_ne_zero]]
  generalize (P (Real.cos (t / 2)) (Real.sin (t / 2)) (l + m).toNat (l - m).toNat).coeff (l + m').toNat = p at *
  generalize (P (Real.cos (t / 2)) (Real.sin (t / 2)) ((l + m).toNat - 1) ((l - m).toNat + 1)).coeff (l + m').toNat = q at *
  generalize (P (Real.cos (t / 2)) (Real.sin (t / 2)) ((l + m).toNat + 1) ((l - m).toNat - 1)).coeff (l + m').toNat = r at *
  generalize Real.cos (t / 2) = c at *
  generalize Real.sin (t / 2) = s at *
  linear_combination (-gN l m' / gN l m) * e + (-gN l m' / gN l m * p * (l : ℝ)) * hcs

/-- raising -/
theorem wignerD_raise (l : ℕ) {m' m : ℤ} (h' : |m'| ≤ l) (h : |m| ≤ l) (t : ℝ) {x : ℝ} (hx : HasDerivAt (wignerD l m' m) x t) :
    Real.sin t * (up l m * wignerD l m' (m + 1) t) = -(Real.sin t * x) + (m * Real.cos t - m') * wignerD l m' m t := by
  rw [hx.unique (wignerD_deriv l h' h t), wignerD_cot l h' h]; ring

/-- lowering -/
theorem wignerD_lower (l : ℕ) {m' m : ℤ} (h' : |m'| ≤ l) (h : |m| ≤ l) (t : ℝ) {x : ℝ} (hx : HasDerivAt (wignerD l m' m) x t) :
    Real.sin t * (dn l m * wignerD l m' (m - 1) t) = Real.sin t * x + (m * Real.cos t - m') * wignerD l m' m t := by
  rw [hx.unique (wignerD_deriv l h' h t), wignerD_cot l h' h]; ring

theorem continuous_wignerD (l : ℕ) (m' m : ℤ) : Continuous (wignerD l m' m) := by
  unfold wignerD
  refine Continuous.mul continuous_const (continuous_finsetSum _ fun s _ => ?_)
  by_cases hc : 0 ≤ m' - m + s ∧ (s : ℤ) ≤ l + m ∧ (s : ℤ) ≤ l - m'
  · simp only [if_pos hc]
    fun_prop
  · simp only [if_neg hc]
    exact continuous_const

/-- `∫_0^π d^l_{m'm} d^k_{m'm} sin θ dθ` -/
noncomputable def J (l k : ℕ) (m' m : ℤ) : ℝ := ∫ t in (0:ℝ)..Real.pi, wignerD l m' m t * wignerD k m' m t * Real.sin t

theorem J_symm (l k : ℕ) (m' m : ℤ) : J l k m' m = J k l m' m := by
  unfold J
  congr 1; funext t; ring

theorem J_ladder (l k : ℕ) {m' m : ℤ} (hl' : |m'| ≤ l) (hk' : |m'| ≤ k) (hl : |m| ≤ l) (hk : |m + 1| ≤ k) :
    up l m * J l k m' (m + 1) = dn k (m + 1) * J l k m' m := by
  have h1 := wignerD_deriv l hl' hl
  have h2 := wignerD_deriv k hk' hk
  set f := wignerD l m' m with hf
  set g := wignerD k m' (m + 1) with hg
  set f' := fun t => (1 / 2 * (dn l m * wignerD l m' (m - 1) t - up l m * wignerD l m' (m + 1) t)) with hf'
  set g' := fun t => (1 / 2 * (dn k (m + 1) * wignerD k m' (m + 1 - 1) t - up k (m + 1) * wignerD k m' (m + 1 + 1) t)) with hg'
  have cw := continuous_wignerD
  have cf : Continuous f := cw _ _ _
  have cg : Continuous g := cw _ _ _
  have cf' : Continuous f' := by
    have a1 := cw l m' (m - 1); have a2 := cw l m' (m + 1)
    rw [hf']; fun_prop
  have cg' : Continuous g' := by
    have a1 := cw k m' (m + 1 - 1); have a2 := cw k m' (m + 1 + 1)
    rw [hg']; fun_prop
  have der : ∀ t ∈ Set.uIcc 0 Real.pi, HasDerivAt (fun t => f t * g t * Real.sin t)
      ((f' t * g t + f t * g' t) * Real.sin t + f t * g t * Real.cos t) t :=
    fun t _ => ((h1 t).mul (h2 t)).mul (Real.hasDerivAt_sin t)
  have ftc := intervalIntegral.integral_eq_sub_of_hasDerivAt der (Continuous.intervalIntegrable (by fun_prop) _ _)
  simp only [Real.sin_pi, Real.sin_zero, mul_zero, sub_zero] at ftc
  unfold J
  rw [← sub_eq_zero, ← intervalIntegral.integral_const_mul, ← intervalIntegral.integral_const_mul,
    ← intervalIntegral.integral_sub
      (Continuous.intervalIntegrable (by have a1 := cw l m' (m + 1); have a2 := cw k m' (m + 1); fun_prop) _ _)
      (Continuous.intervalIntegrable (by have a1 := cw l m' m; have a2 := cw k m' m; fun_prop) _ _)]
  rw [← neg_eq_zero, ← intervalIntegral.integral_neg, ← ftc]
  congr 1
  funext t
  have r := wignerD_raise l hl' hl t (h1 t)
  have s := wignerD_lower k hk' hk t (h2 t)
  rw [add_sub_cancel_right] at s
  push_cast at s
  simp only [← hf, ← hg] at r s ⊢
  change _ = (f' t * g t + f t * g' t) * Real.sin t + f t * g t * Real.cos t
  change Real.sin t * (up l m * wignerD l m' (m + 1) t) = -(Real.sin t * f' t) + _ at r
  have hgt : g' t = 1 / 2 * (dn k (m + 1) * wignerD k m' m t - up k (m + 1) * wignerD k m' (m + 1 + 1) t) := by
    rw [hg', add_sub_cancel_right]
  rw [← hgt] at s
  linear_combination (-g t) * r + f t * s

theorem dn_up (k : ℕ) (m : ℤ) : dn k (m + 1) = up k m := by
  unfold dn up; congr 1; push_cast; ring

theorem up_sq {l : ℕ} {m : ℤ} (h : |m| ≤ l) : up l m ^ 2 = ((l : ℝ) - m) * (l + m + 1) := by
  obtain ⟨a1, a2⟩ := abs_le.mp h
  have q1 : (0:ℝ) ≤ (l : ℝ) + m := by exact_mod_cast (by omega : (0:ℤ) ≤ l + m)
  have q2 : (0:ℝ) ≤ (l : ℝ) - m := by exact_mod_cast (by omega : (0:ℤ) ≤ l - m)
  unfold up
  rw [Real.sq_sqrt (by positivity)]

theorem up_pos {l : ℕ} {m : ℤ} (h : -(l : ℤ) ≤ m) (h' : m < l) : 0 < up l m := by
  have q1 : (0:ℝ) ≤ (l : ℝ) + m := by exact_mod_cast (by omega : (0:ℤ) ≤ l + m)
  have q2 : (0:ℝ) < (l : ℝ) - m := by
    have : (m : ℝ) < l := by exact_mod_cast h'
    linarith
  unfold up
  positivity

theorem J_lt {l k : ℕ} (hlk : l < k) {m' m : ℤ} (h' : |m'| ≤ l) (h : |m| ≤ l) : J l k m' m = 0 := by
  obtain ⟨a1, a2⟩ := abs_le.mp h
  obtain ⟨b1, b2⟩ := abs_le.mp h'
  have h'k : |m'| ≤ (k : ℤ) := abs_le.mpr ⟨by omega, by omega⟩
  have hk : |m| ≤ (k : ℤ) := abs_le.mpr ⟨by omega, by omega⟩
  have A := J_ladder l k h' h'k h (abs_le.mpr ⟨by omega, by omega⟩ : |m + 1| ≤ (k : ℤ))
  rw [dn_up] at A
  have pk := up_pos (l := k) (m := m) (by omega) (by omega)
  by_cases hm : m = l
  · rw [hm, up_top, zero_mul, ← hm] at A
    rcases mul_eq_zero.mp A.symm with e | e
    · exact absurd e pk.ne'
    · exact e
  · have B := J_ladder k l h'k h' hk (abs_le.mpr ⟨by omega, by omega⟩ : |m + 1| ≤ (l : ℤ))
    rw [dn_up, J_symm k l, J_symm k l] at B
    have s1 := up_sq h
    have s2 := up_sq hk
    have e : (up k m ^ 2 - up l m ^ 2) * J l k m' m = 0 := by linear_combination up l m * B - up k m * A
    rcases mul_eq_zero.mp e with z | z
    · exfalso
      rw [s1, s2] at z
      have hlk' : (l : ℝ) + 1 ≤ k := by exact_mod_cast hlk
      have hl0 : (0 : ℝ) ≤ l := Nat.cast_nonneg _
      nlinarith
    · exact z

theorem J_ne {l k : ℕ} (hlk : l ≠ k) {m' m : ℤ} (hl' : |m'| ≤ l) (hk' : |m'| ≤ k) (hl : |m| ≤ l) (hk : |m| ≤ k) : J l k m' m = 0 := by
  rcases lt_or_gt_of_ne hlk with h | h
  · exact J_lt h hl' hl
  · rw [J_symm]; exact J_lt h hk' hk

theorem J_step {l : ℕ} {m' m : ℤ} (h' : |m'| ≤ l) (h0 : -(l : ℤ) ≤ m) (h1 : m < l) : J l l m' (m + 1) = J l l m' m := by
  have A := J_ladder l l h' h' (abs_le.mpr ⟨by omega, by omega⟩ : |m| ≤ (l : ℤ)) (abs_le.mpr ⟨by omega, by omega⟩ : |m + 1| ≤ (l : ℤ))
  rw [dn_up] at A
  exact mul_left_cancel₀ (up_pos h0 h1).ne' A

theorem J_const {l : ℕ} {m' : ℤ} (h' : |m'| ≤ l) (i : ℕ) (hi : i ≤ 2 * l) : J l l m' ((i : ℤ) - l) = J l l m' (-l) := by
  induction i with
  | zero => simp
  | succ i ih =>
    rw [← ih (by omega), ← J_step h' (m := (i : ℤ) - l) (by omega) (by omega)]
    congr 1; push_cast; ring

/-- Rows of `d` are unit vectors. -/
theorem wignerD_unit_row (l : ℕ) {m : ℤ} (h : |m| ≤ l) (θ : ℝ) :
    ∑ a ∈ range (2 * l + 1), wignerD l m ((a : ℤ) - l) θ ^ 2 = 1 := by
  rw [← wignerD_unit l h θ]
  apply sum_congr rfl
  intro a ha
  have := mem_range.mp ha
  rw [wignerD_transpose l (m' := (a : ℤ) - l) (m := m) (abs_le.mpr ⟨by omega, by omega⟩) h, mul_pow, ← pow_mul, mul_comm _ 2, pow_mul]
  simp

theorem J_self {l : ℕ} {m' m : ℤ} (h' : |m'| ≤ l) (h : |m| ≤ l) : J l l m' m = 2 / (2 * l + 1) := by
  obtain ⟨a1, a2⟩ := abs_le.mp h
  have hs : ∑ i ∈ range (2 * l + 1), J l l m' ((i : ℤ) - l) = 2 := by
    unfold J
    rw [← intervalIntegral.integral_finsetSum (fun i _ => Continuous.intervalIntegrable (by
      have := continuous_wignerD l m' ((i : ℤ) - l); fun_prop) _ _)]
    have : (fun t => ∑ i ∈ range (2 * l + 1), wignerD l m' ((i : ℤ) - l) t * wignerD l m' ((i : ℤ) - l) t * Real.sin t) = Real.sin := by
      funext t
      rw [← sum_mul]
      have := wignerD_unit_row l h' t
      simp only [pow_two] at this
      rw [this, one_mul]
    rw [this, integral_sin]
    simp; norm_num
  rw [sum_congr rfl (fun i hi => J_const h' i (by have := mem_range.mp hi; omega)), sum_const, card_range, nsmul_eq_mul] at hs
  have hm : J l l m' m = J l l m' (-l) := by
    rw [← J_const h' (l + m).toNat (by omega)]
    congr 1; omega
  rw [hm]
  have hp : (2 * (l : ℝ) + 1) ≠ 0 := by positivity
  push_cast at hs
  field_simp
  linarith

end Verif.Num
