import Verif.Num.WignerD
import Mathlib.Analysis.Calculus.Deriv.Mul
import Mathlib.Analysis.Calculus.Deriv.Add
import Mathlib.Analysis.SpecialFunctions.Trigonometric.Deriv
import Mathlib.Analysis.Calculus.MeanValue

/-!
# Derivatives of Wigner's functions in the angle (for C61)

Mathematics only: nothing here models code.
-/

namespace Verif.Num
open Finset Polynomial

/-- Coefficientwise derivative of a polynomial depending on a parameter. -/
def CoeffDeriv (p : ℝ → ℝ[X]) (p' : ℝ[X]) (t : ℝ) : Prop := ∀ k, HasDerivAt (fun x => (p x).coeff k) (p'.coeff k) t

theorem CoeffDeriv.mul {p q : ℝ → ℝ[X]} {p' q' : ℝ[X]} {t : ℝ} (hp : CoeffDeriv p p' t) (hq : CoeffDeriv q q' t) :
    CoeffDeriv (fun x => p x * q x) (p' * q t + p t * q') t := by
  intro k
  simp only [coeff_mul, coeff_add]
  rw [← sum_add_distrib]
  exact HasDerivAt.fun_sum (fun i _ => (hp i.1).mul (hq i.2))

theorem CoeffDeriv.pow {p : ℝ → ℝ[X]} {p' : ℝ[X]} {t : ℝ} (hp : CoeffDeriv p p' t) (n : ℕ) :
    CoeffDeriv (fun x => p x ^ n) (C (n : ℝ) * p t ^ (n - 1) * p') t := by
  induction n with
  | zero => intro k; simpa using hasDerivAt_const t _
  | succ n ih =>
    have h := ih.mul hp
    intro k
    have hk := h k
    simp only [← pow_succ] at hk
    refine hk.congr_deriv ?_
    congr 1
    rcases n with _ | n
    · simp
    · simp only [Nat.add_sub_cancel, Nat.cast_add, Nat.cast_one, C_add, C_1]
      rw [pow_succ]; ring

theorem half_cos (t : ℝ) : HasDerivAt (fun x : ℝ => Real.cos (x / 2)) (-(1 / 2) * Real.sin (t / 2)) t := by
  have h := (Real.hasDerivAt_cos (t / 2)).comp t ((hasDerivAt_id t).div_const 2)
  refine h.congr_deriv ?_
  ring

theorem half_sin (t : ℝ) : HasDerivAt (fun x : ℝ => Real.sin (x / 2)) (1 / 2 * Real.cos (t / 2)) t := by
  have h := (Real.hasDerivAt_sin (t / 2)).comp t ((hasDerivAt_id t).div_const 2)
  refine h.congr_deriv ?_
  ring

theorem P_deriv (u v : ℕ) (t : ℝ) : CoeffDeriv (fun x => P (Real.cos (x / 2)) (Real.sin (x / 2)) u v)
    (C (1 / 2 : ℝ) * (C (u : ℝ) * P (Real.cos (t / 2)) (Real.sin (t / 2)) (u - 1) (v + 1)
      - C (v : ℝ) * P (Real.cos (t / 2)) (Real.sin (t / 2)) (u + 1) (v - 1))) t := by
  have hA : CoeffDeriv (fun x => C (Real.cos (x / 2)) * X + C (Real.sin (x / 2)))
      (C (1 / 2 : ℝ) * (C (Real.cos (t / 2)) - C (Real.sin (t / 2)) * X)) t := by
    intro k
    simp only [coeff_add, coeff_C_mul, coeff_sub, coeff_X, coeff_C]
    refine (((half_cos t).mul_const (if 1 = k then (1:ℝ) else 0)).add (g' := if k = 0 then 1 / 2 * Real.cos (t / 2) else 0) ?_).congr_deriv ?_
    · split
      · exact half_sin t
      · exact hasDerivAt_const t 0
    · split_ifs <;> ring
  have hB : CoeffDeriv (fun x => C (Real.cos (x / 2)) - C (Real.sin (x / 2)) * X)
      (-(C (1 / 2 : ℝ) * (C (Real.cos (t / 2)) * X + C (Real.sin (t / 2))))) t := by
    intro k
    simp only [coeff_add, coeff_C_mul, coeff_sub, coeff_X, coeff_C, coeff_neg]
    refine (HasDerivAt.sub (f' := if k = 0 then -(1 / 2) * Real.sin (t / 2) else 0) ?_ ((half_sin t).mul_const (if 1 = k then (1:ℝ) else 0))).congr_deriv ?_
    · split
      · exact half_cos t
      · exact hasDerivAt_const t 0
    · split_ifs <;> ring
  have h := (hA.pow u).mul (hB.pow v)
  intro k
  refine (h k).congr_deriv ?_
  congr 1
  unfold P
  rw [pow_succ, pow_succ]
  ring

/-! ## the ladder -/

/-- `√((l-m)(l+m+1))` -/
noncomputable def up (l : ℕ) (m : ℤ) : ℝ := √(((l : ℝ) - m) * (l + m + 1))

/-- `√((l+m)(l-m+1))` -/
noncomputable def dn (l : ℕ) (m : ℤ) : ℝ := √(((l : ℝ) + m) * (l - m + 1))

theorem gN_up {l : ℕ} {m : ℤ} (h0 : -(l : ℤ) ≤ m) (h1 : m < l) : ((l : ℝ) - m) * gN l (m + 1) = up l m * gN l m := by
  have hA : (((l + m).toNat : ℕ) : ℝ) = l + m := by
    have : (((l + m).toNat : ℕ) : ℤ) = l + m := Int.toNat_of_nonneg (by omega)
    exact_mod_cast congrArg (fun z : ℤ => (z : ℝ)) this
  have hB : (((l - m - 1).toNat : ℕ) : ℝ) = l - m - 1 := by
    have : (((l - m - 1).toNat : ℕ) : ℤ) = l - m - 1 := Int.toNat_of_nonneg (by omega)
    exact_mod_cast congrArg (fun z : ℤ => (z : ℝ)) this
  have q1 : (0:ℝ) ≤ (l : ℝ) + m := by exact_mod_cast (by omega : (0:ℤ) ≤ l + m)
  have q2 : (0:ℝ) ≤ (l : ℝ) - m := by exact_mod_cast (by omega : (0:ℤ) ≤ l - m)
  have e1 : (l + (m + 1)).toNat = (l + m).toNat + 1 := by omega
  have e2 : (l - m).toNat = (l - m - 1).toNat + 1 := by omega
  have e3 : (l - (m + 1)).toNat = (l - m - 1).toNat := by omega
  unfold gN up
  rw [e1, e2, e3, Nat.factorial_succ, Nat.factorial_succ, ← Real.sqrt_mul (by positivity)]
  push_cast
  rw [hA, hB]
  have : ((l : ℝ) - m) = √(((l : ℝ) - m) ^ 2) := (Real.sqrt_sq q2).symm
  nth_rw 1 [this]
  rw [← Real.sqrt_mul (by positivity)]
  congr 1
  ring

theorem gN_neg (l : ℕ) (m : ℤ) : gN l (-m) = gN l m := by
  unfold gN
  rw [show (l + -m : ℤ) = l - m by ring, show (l - -m : ℤ) = l + m by ring, mul_comm]

theorem up_neg (l : ℕ) (m : ℤ) : up l (-m) = dn l m := by
  unfold up dn; congr 1; push_cast; ring

theorem gN_dn {l : ℕ} {m : ℤ} (h0 : -(l : ℤ) < m) (h1 : m ≤ l) : ((l : ℝ) + m) * gN l (m - 1) = dn l m * gN l m := by
  have h := gN_up (l := l) (m := -m) (by omega) (by omega)
  rw [up_neg, gN_neg, show (-m + 1 : ℤ) = -(m - 1) by ring, gN_neg] at h
  push_cast at h
  rw [← h]; ring

theorem up_top (l : ℕ) : up l l = 0 := by unfold up; simp
theorem dn_bot (l : ℕ) : dn l (-l) = 0 := by unfold dn; simp

/-- The derivative of `d^l_{m'm}`. -/
theorem wignerD_deriv (l : ℕ) {m' m : ℤ} (h' : |m'| ≤ l) (h : |m| ≤ l) (t : ℝ) :
    HasDerivAt (wignerD l m' m) (1 / 2 * (dn l m * wignerD l m' (m - 1) t - up l m * wignerD l m' (m + 1) t)) t := by
  obtain ⟨a1, a2⟩ := abs_le.mp h
  have hfun : wignerD l m' m = fun x => gN l m' / gN l m *
      (P (Real.cos (x / 2)) (Real.sin (x / 2)) (l + m).toNat (l - m).toNat).coeff (l + m').toNat := by
    funext x; exact wignerD_eq l h' h x
  rw [hfun]
  refine ((P_deriv (l + m).toNat (l - m).toNat t (l + m').toNat).const_mul _).congr_deriv ?_
  rw [coeff_C_mul, coeff_sub, coeff_C_mul, coeff_C_mul]
  have g0 := gN_pos l m
  have g0' := gN_pos l m'
  have hA : (((l + m).toNat : ℕ) : ℝ) = l + m := by
    have : (((l + m).toNat : ℕ) : ℤ) = l + m := Int.toNat_of_nonneg (by omega)
    exact_mod_cast congrArg (fun z : ℤ => (z : ℝ)) this
  have hB : (((l - m).toNat : ℕ) : ℝ) = l - m := by
    have : (((l - m).toNat : ℕ) : ℤ) = l - m := Int.toNat_of_nonneg (by omega)
    exact_mod_cast congrArg (fun z : ℤ => (z : ℝ)) this
  rw [hA, hB]
  have t1 : gN l m' / gN l m * (((l : ℝ) + m) * (P (Real.cos (t / 2)) (Real.sin (t / 2)) ((l + m).toNat - 1) ((l - m).toNat + 1)).coeff (l + m').toNat)
      = dn l m * wignerD l m' (m - 1) t := by
    by_cases hb : m = -l
    · have : ((l : ℝ) + m) = 0 := by rw [hb]; push_cast; ring
      rw [this, hb, dn_bot]; ring
    · have hlt : -(l : ℤ) < m := by omega
      rw [wignerD_eq l h' (abs_le.mpr ⟨by omega, by omega⟩ : |m - 1| ≤ (l : ℤ)),
        show (l + (m - 1)).toNat = (l + m).toNat - 1 by omega, show (l - (m - 1)).toNat = (l - m).toNat + 1 by omega]
      have hg := gN_dn hlt a2
      have g1 := gN_pos l (m - 1)
      generalize (P (Real.cos (t / 2)) (Real.sin (t / 2)) ((l + m).toNat - 1) ((l - m).toNat + 1)).coeff (l + m').toNat = w
      field_simp
      linear_combination w * hg
  have t2 : gN l m' / gN l m * (((l : ℝ) - m) * (P (Real.cos (t / 2)) (Real.sin (t / 2)) ((l + m).toNat + 1) ((l - m).toNat - 1)).coeff (l + m').toNat)
      = up l m * wignerD l m' (m + 1) t := by
    by_cases hb : m = l
    · have : ((l : ℝ) - m) = 0 := by rw [hb]; push_cast; ring
      rw [this, hb, up_top]; ring
    · have hlt : m < l := by omega
      rw [wignerD_eq l h' (abs_le.mpr ⟨by omega, by omega⟩ : |m + 1| ≤ (l : ℤ)),
        show (l + (m + 1)).toNat = (l + m).toNat + 1 by omega, show (l - (m + 1)).toNat = (l - m).toNat - 1 by omega]
      have hg := gN_up a1 hlt
      have g1 := gN_pos l (m + 1)
      generalize (P (Real.cos (t / 2)) (Real.sin (t / 2)) ((l + m).toNat + 1) ((l - m).toNat - 1)).coeff (l + m').toNat = w
      field_simp
      linear_combination w * hg
  rw [← t1, ← t2]
  ring

/-- Repeated derivatives. -/
noncomputable def dTower (l : ℕ) (m' : ℤ) : ℕ → ℤ → ℝ → ℝ
  | 0, m, t => wignerD l m' m t
  | n + 1, m, t => 1 / 2 * (dn l m * dTower l m' n (m - 1) t - up l m * dTower l m' n (m + 1) t)

theorem dTower_deriv (l : ℕ) {m' : ℤ} (h' : |m'| ≤ l) : ∀ (n : ℕ) {m : ℤ}, |m| ≤ l → ∀ t,
    HasDerivAt (dTower l m' n m) (dTower l m' (n + 1) m t) t := by
  intro n
  induction n with
  | zero =>
    intro m h t
    exact wignerD_deriv l h' h t
  | succ n ih =>
    intro m h t
    obtain ⟨a1, a2⟩ := abs_le.mp h
    have d1 : HasDerivAt (fun x => dn l m * dTower l m' n (m - 1) x) (dn l m * dTower l m' (n + 1) (m - 1) t) t := by
      by_cases hb : m = -l
      · rw [hb, dn_bot]; simpa using hasDerivAt_const t (0 : ℝ)
      · exact (ih (abs_le.mpr ⟨by omega, by omega⟩) t).const_mul _
    have d2 : HasDerivAt (fun x => up l m * dTower l m' n (m + 1) x) (up l m * dTower l m' (n + 1) (m + 1) t) t := by
      by_cases hb : m = l
      · rw [hb, up_top]; simpa using hasDerivAt_const t (0 : ℝ)
      · exact (ih (abs_le.mpr ⟨by omega, by omega⟩) t).const_mul _
    exact (d1.sub d2).const_mul (1 / 2)

theorem up_le {l : ℕ} {m : ℤ} (h : |m| ≤ l) : 0 ≤ up l m ∧ up l m ≤ l + 1 / 2 := by
  obtain ⟨a1, a2⟩ := abs_le.mp h
  have q1 : (0:ℝ) ≤ (l : ℝ) + m := by exact_mod_cast (by omega : (0:ℤ) ≤ l + m)
  have q2 : (0:ℝ) ≤ (l : ℝ) - m := by exact_mod_cast (by omega : (0:ℤ) ≤ l - m)
  refine ⟨Real.sqrt_nonneg _, ?_⟩
  unfold up
  rw [Real.sqrt_le_left (by positivity)]
  nlinarith [sq_nonneg ((m : ℝ) + 1 / 2)]

theorem dn_le {l : ℕ} {m : ℤ} (h : |m| ≤ l) : 0 ≤ dn l m ∧ dn l m ≤ l + 1 / 2 := by
  rw [← up_neg]; exact up_le (by rw [abs_neg]; exact h)

theorem dTower_bound (l : ℕ) {m' : ℤ} (h' : |m'| ≤ l) : ∀ (n : ℕ) {m : ℤ}, |m| ≤ l → ∀ t,
    |dTower l m' n m t| ≤ ((l : ℝ) + 1 / 2) ^ n := by
  intro n
  induction n with
  | zero => intro m h t; simpa [dTower] using abs_wignerD_le_one l h' h t
  | succ n ih =>
    intro m h t
    obtain ⟨a1, a2⟩ := abs_le.mp h
    set B := ((l : ℝ) + 1 / 2) with hB
    have hB0 : 0 ≤ B := by positivity
    have d1 : |dn l m * dTower l m' n (m - 1) t| ≤ B * B ^ n := by
      by_cases hb : m = -l
      · rw [hb, dn_bot, zero_mul, abs_zero]; positivity
      · rw [abs_mul, abs_of_nonneg (dn_le h).1]
        exact mul_le_mul (dn_le h).2 (ih (abs_le.mpr ⟨by omega, by omega⟩) t) (abs_nonneg _) hB0
    have d2 : |up l m * dTower l m' n (m + 1) t| ≤ B * B ^ n := by
      by_cases hb : m = l
      · rw [hb, up_top, zero_mul, abs_zero]; positivity
      · rw [abs_mul, abs_of_nonneg (up_le h).1]
        exact mul_le_mul (up_le h).2 (ih (abs_le.mpr ⟨by omega, by omega⟩) t) (abs_nonneg _) hB0
    show |1 / 2 * (dn l m * dTower l m' n (m - 1) t - up l m * dTower l m' n (m + 1) t)| ≤ B ^ (n + 1)
    rw [abs_mul, abs_of_pos (by norm_num : (0:ℝ) < 1 / 2), pow_succ']
    have := abs_sub (dn l m * dTower l m' n (m - 1) t) (up l m * dTower l m' n (m + 1) t)
    linarith

/-- Continuity in the angle. -/
theorem wignerD_lipschitz (l : ℕ) {m' m : ℤ} (h' : |m'| ≤ l) (h : |m| ≤ l) (a b : ℝ) :
    |wignerD l m' m a - wignerD l m' m b| ≤ ((l : ℝ) + 1 / 2) * |a - b| := by
  have := Convex.norm_image_sub_le_of_norm_hasDerivWithin_le (f := wignerD l m' m) (f' := dTower l m' 1 m) (s := Set.univ)
    (C := (l : ℝ) + 1 / 2) (fun x _ => (dTower_deriv l h' 0 h x).hasDerivWithinAt)
    (fun x _ => by simpa using dTower_bound l h' 1 h x) convex_univ (Set.mem_univ b) (Set.mem_univ a)
  simpa [Real.norm_eq_abs] using this

/-- Full turns. -/
theorem wignerD_turn (l : ℕ) {m' m : ℤ} (h' : |m'| ≤ l) (h : |m| ≤ l) (t : ℝ) :
    wignerD l m' m (t + 2 * Real.pi) = wignerD l m' m t := by
  have h1 := wignerD_pi_sub l h' h (-(t + Real.pi))
  have hneg : |-m| ≤ (l : ℤ) := by rw [abs_neg]; exact h
  rw [show Real.pi - -(t + Real.pi) = t + 2 * Real.pi by ring] at h1
  have h2 := wignerD_neg l h' hneg (t + Real.pi)
  have h3 := wignerD_pi_sub l h' hneg (-t)
  rw [show Real.pi - -t = t + Real.pi by ring, neg_neg] at h3
  have h4 := wignerD_neg l h' h t
  rw [h1, h2, h3, h4, Int.natAbs_neg]
  have e : ∀ n : ℕ, ((-1 : ℝ) ^ n) * (-1) ^ n = 1 := fun n => by rw [← mul_pow]; norm_num
  grind

theorem wignerD_turns (l : ℕ) {m' m : ℤ} (h' : |m'| ≤ l) (h : |m| ≤ l) (t : ℝ) (k : ℤ) :
    wignerD l m' m (t + 2 * Real.pi * k) = wignerD l m' m t := by
  induction k using Int.induction_on with
  | zero => simp
  | succ i ih =>
    rw [← ih, ← wignerD_turn l h' h (t + 2 * Real.pi * ((i : ℤ) : ℝ))]; congr 1; push_cast; ring
  | pred i ih =>
    rw [← ih, ← wignerD_turn l h' h (t + 2 * Real.pi * ((-(i:ℤ) - 1 : ℤ) : ℝ))]; congr 1; push_cast; ring

end Verif.Num
