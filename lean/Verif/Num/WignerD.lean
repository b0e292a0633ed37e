import Mathlib.Analysis.SpecialFunctions.Trigonometric.Basic
import Mathlib.Analysis.SpecialFunctions.Sqrt
import Mathlib.Algebra.Polynomial.Derivative
import Mathlib.Algebra.Polynomial.Eval.Coeff
import Mathlib.Algebra.Polynomial.Reverse
import Mathlib.Data.Nat.Choose.Sum
import Mathlib.Tactic.LinearCombination
import Mathlib.Tactic.FieldSimp
import Mathlib.Tactic.Ring
import Mathlib.Tactic.Linarith
import Mathlib.Tactic.Positivity

/-!
# Wigner d-functions: specification and identities

`wignerD l m' m θ` is the textbook definition (Wigner's explicit sum).  Everything else in this file
is proved about it: it is a coefficient of a product of binomials, from which follow the symmetries,
the three-term recurrence in `l`, the values at the lowest `l`, and the bound `|d| ≤ 1`.
Nothing here mentions the program.
-/

namespace Verif.Num
open Polynomial Finset

/-- Wigner's formula for `d^l_{m'm}(θ)`. -/
noncomputable def wignerD (l : ℕ) (m' m : ℤ) (θ : ℝ) : ℝ :=
  √(((l + m').toNat.factorial * (l - m').toNat.factorial * (l + m).toNat.factorial * (l - m).toNat.factorial : ℕ)) *
  ∑ s ∈ range (2 * l + 1),
    if 0 ≤ m' - m + s ∧ (s : ℤ) ≤ l + m ∧ (s : ℤ) ≤ l - m' then
      (-1) ^ (m' - m + s).toNat * Real.cos (θ / 2) ^ (2 * l + m - m' - 2 * s).toNat
        * Real.sin (θ / 2) ^ (m' - m + 2 * s).toNat
        / ((l + m - s).toNat.factorial * s.factorial * (m' - m + s).toNat.factorial * (l - m' - s).toNat.factorial : ℕ)
    else 0

/-! ## the polynomials -/

/-- `(cX + s)^u (c - sX)^v` -/
noncomputable def P (c s : ℝ) (u v : ℕ) : ℝ[X] := (C c * X + C s) ^ u * (C c - C s * X) ^ v

theorem coeff_A (c s : ℝ) (u k : ℕ) (hk : k ≤ u) :
    ((C c * X + C s) ^ u : ℝ[X]).coeff k = c ^ k * s ^ (u - k) * (u.choose k : ℝ) := by
  rw [add_pow]
  simp only [mul_pow, ← C_pow, finset_sum_coeff]
  rw [Finset.sum_eq_single k]
  · rw [show (C (c ^ k) * X ^ k * C (s ^ (u - k)) * (u.choose k : ℝ[X])) =
      C (c ^ k * s ^ (u - k) * (u.choose k : ℝ)) * X ^ k by simp only [C_mul, C_eq_natCast]; ring]
    rw [coeff_C_mul, coeff_X_pow_self, mul_one]
  · intro b hb hne
    rw [show (C (c ^ b) * X ^ b * C (s ^ (u - b)) * (u.choose b : ℝ[X])) =
      C (c ^ b * s ^ (u - b) * (u.choose b : ℝ)) * X ^ b by simp only [C_mul, C_eq_natCast]; ring]
    rw [coeff_C_mul, coeff_X_pow, if_neg (Ne.symm hne), mul_zero]
  · intro h; simp at h; omega

theorem coeff_A_gt (c s : ℝ) (u k : ℕ) (hk : u < k) : ((C c * X + C s) ^ u : ℝ[X]).coeff k = 0 := by
  apply coeff_eq_zero_of_natDegree_lt
  refine lt_of_le_of_lt (natDegree_pow_le) ?_
  have : (C c * X + C s : ℝ[X]).natDegree ≤ 1 := natDegree_linear_le
  nlinarith

theorem coeff_B (c s : ℝ) (v k : ℕ) (hk : k ≤ v) :
    ((C c - C s * X) ^ v : ℝ[X]).coeff k = (-1) ^ k * s ^ k * c ^ (v - k) * (v.choose k : ℝ) := by
  have : (C c - C s * X : ℝ[X]) = C (-s) * X + C c := by simp; ring
  rw [this, coeff_A _ _ _ _ hk, neg_pow]

theorem coeff_B_gt (c s : ℝ) (v k : ℕ) (hk : v < k) : ((C c - C s * X) ^ v : ℝ[X]).coeff k = 0 := by
  have : (C c - C s * X : ℝ[X]) = C (-s) * X + C c := by simp; ring
  rw [this, coeff_A_gt _ _ _ _ hk]

theorem coeff_P_gt (c s : ℝ) (u v k : ℕ) (hk : u + v < k) : (P c s u v).coeff k = 0 := by
  apply coeff_eq_zero_of_natDegree_lt
  refine lt_of_le_of_lt natDegree_mul_le ?_
  have h1 : ((C c * X + C s) ^ u : ℝ[X]).natDegree ≤ u := by
    refine natDegree_pow_le.trans ?_
    have : (C c * X + C s : ℝ[X]).natDegree ≤ 1 := natDegree_linear_le
    nlinarith
  have h2 : ((C c - C s * X) ^ v : ℝ[X]).natDegree ≤ v := by
    refine natDegree_pow_le.trans ?_
    have e : (C c - C s * X : ℝ[X]) = C (-s) * X + C c := by simp; ring
    have : (C c - C s * X : ℝ[X]).natDegree ≤ 1 := by rw [e]; exact natDegree_linear_le
    nlinarith
  omega

/-- The d-function as a normalised coefficient. -/
theorem wignerD_eq_coeff (l : ℕ) {m' m : ℤ} (h' : |m'| ≤ l) (h : |m| ≤ l) (θ : ℝ) :
    wignerD l m' m θ = √((l + m').toNat.factorial * (l - m').toNat.factorial : ℝ) /
      √((l + m).toNat.factorial * (l - m).toNat.factorial : ℝ) *
      (P (Real.cos (θ / 2)) (Real.sin (θ / 2)) (l + m).toNat (l - m).toNat).coeff (l + m').toNat := by
  obtain ⟨a1, a2⟩ := abs_le.mp h'
  obtain ⟨b1, b2⟩ := abs_le.mp h
  obtain ⟨a, ha⟩ : ∃ a : ℕ, (a : ℤ) = l + m' := ⟨(l + m').toNat, by omega⟩
  obtain ⟨u, hu⟩ : ∃ a : ℕ, (a : ℤ) = l + m := ⟨(l + m).toNat, by omega⟩
  obtain ⟨v, hv⟩ : ∃ a : ℕ, (a : ℤ) = l - m := ⟨(l - m).toNat, by omega⟩
  obtain ⟨w, hw⟩ : ∃ a : ℕ, (a : ℤ) = l - m' := ⟨(l - m').toNat, by omega⟩
  unfold wignerD
  set c := Real.cos (θ / 2)
  set s := Real.sin (θ / 2)
  rw [← ha, ← hu, ← hv, ← hw]
  simp only [Int.toNat_natCast]
  have hfac : √((a.factorial * w.factorial * u.factorial * v.factorial : ℕ) : ℝ) =
      √(a.factorial * w.factorial : ℝ) / √(u.factorial * v.factorial : ℝ) * (u.factorial * v.factorial) := by
    push_cast
    rw [show ((a.factorial : ℝ) * w.factorial * u.factorial * v.factorial) =
      (a.factorial * w.factorial) * (u.factorial * v.factorial) by ring,
      Real.sqrt_mul (by positivity)]
    have hp : (0:ℝ) < u.factorial * v.factorial := by positivity
    have h1 : √(u.factorial * v.factorial : ℝ) ≠ 0 := (Real.sqrt_pos.mpr hp).ne'
    rw [div_mul_eq_mul_div, eq_div_iff h1, mul_assoc, Real.mul_self_sqrt hp.le]
  rw [hfac, mul_assoc]
  congr 1
  rw [P, coeff_mul, Finset.Nat.sum_antidiagonal_eq_sum_range_succ
    (fun i j => ((C c * X + C s) ^ u : ℝ[X]).coeff i * ((C c - C s * X) ^ v : ℝ[X]).coeff j)]
  -- match terms: k = u - s'
  rw [Finset.mul_sum]
  -- restrict both sums
  have key : ∀ k : ℕ, k ≤ a → k ≤ u → a - k ≤ v →
      (u.factorial * v.factorial : ℝ) * ((-1) ^ (a - k) * c ^ (k + (v - (a - k))) * s ^ ((u - k) + (a - k)) /
        (k.factorial * (u - k).factorial * (a - k).factorial * (v - (a - k)).factorial : ℕ)) =
      ((C c * X + C s) ^ u : ℝ[X]).coeff k * ((C c - C s * X) ^ v : ℝ[X]).coeff (a - k) := by
    intro k hka hku hav
    rw [coeff_A _ _ _ _ hku, coeff_B _ _ _ _ hav]
    have e1 := Nat.choose_mul_factorial_mul_factorial hku
    have e2 := Nat.choose_mul_factorial_mul_factorial hav
    have e1' : (u.choose k : ℝ) * k.factorial * (u - k).factorial = u.factorial := by exact_mod_cast e1
    have e2' : (v.choose (a - k) : ℝ) * (a - k).factorial * (v - (a - k)).factorial = v.factorial := by
      exact_mod_cast e2
    rw [← e1', ← e2']
    have p1 : (k.factorial : ℝ) ≠ 0 := by positivity
    have p2 : ((u - k).factorial : ℝ) ≠ 0 := by positivity
    have p3 : ((a - k).factorial : ℝ) ≠ 0 := by positivity
    have p4 : ((v - (a - k)).factorial : ℝ) ≠ 0 := by positivity
    push_cast
    rw [pow_add, pow_add]
    field_simp
  symm
  refine Finset.sum_bij_ne_zero (fun k _ _ => u - k) ?_ ?_ ?_ ?_
  · intro k hk hne
    simp only [mem_range] at hk ⊢
    omega
  · intro k hk hne k' hk' hne' e
    have h1 : k ≤ u := by
      by_contra hc; exact hne (by rw [coeff_A_gt _ _ _ _ (by omega), zero_mul])
    have h2 : k' ≤ u := by
      by_contra hc; exact hne' (by rw [coeff_A_gt _ _ _ _ (by omega), zero_mul])
    omega
  · intro t ht hne
    have hcond : 0 ≤ m' - m + t ∧ (t : ℤ) ≤ u ∧ (t : ℤ) ≤ w := by
      by_contra hc; exact hne (by rw [if_neg hc, mul_zero])
    have hk1 : u - t ≤ a := by omega
    have hk2 : u - t ≤ u := by omega
    have hk3 : a - (u - t) ≤ v := by omega
    refine ⟨u - t, by simp only [mem_range]; omega, ?_, by omega⟩
    rw [← key _ hk1 hk2 hk3]
    rw [if_pos hcond] at hne
    convert hne using 2
    have q1 : (m' - m + t).toNat = a - (u - t) := by omega
    have q2 : (2 * l + m - m' - 2 * t : ℤ).toNat = (u - t) + (v - (a - (u - t))) := by omega
    have q3 : (m' - m + 2 * t : ℤ).toNat = (u - (u - t)) + (a - (u - t)) := by omega
    have q4 : ((u : ℤ) - t).toNat = u - t := by omega
    have q5 : ((w : ℤ) - t).toNat = v - (a - (u - t)) := by omega
    have q6 : u - (u - t) = t := by omega
    rw [q1, q2, q3, q4, q5, q6]
  · intro k hk hne
    have h1 : k ≤ u := by
      by_contra hc; exact hne (by rw [coeff_A_gt _ _ _ _ (by omega), zero_mul])
    have h2 : a - k ≤ v := by
      by_contra hc; exact hne (by rw [coeff_B_gt _ _ _ _ (by omega), mul_zero])
    simp only [mem_range] at hk
    have h3 : k ≤ a := by omega
    rw [if_pos (by omega), ← key k h3 h1 h2]
    have q1 : (m' - m + (u - k : ℕ)).toNat = a - k := by omega
    have q2 : (2 * l + m - m' - 2 * (u - k : ℕ) : ℤ).toNat = k + (v - (a - k)) := by omega
    have q3 : (m' - m + 2 * (u - k : ℕ) : ℤ).toNat = (u - k) + (a - k) := by omega
    have q4 : ((u : ℤ) - (u - k : ℕ)).toNat = k := by omega
    have q5 : ((w : ℤ) - (u - k : ℕ)).toNat = v - (a - k) := by omega
    rw [q1, q2, q3, q4, q5]

/-! ## symmetries -/

theorem comp_neg_coeff (p : ℝ[X]) (k : ℕ) : (p.comp (-X)).coeff k = (-1) ^ k * p.coeff k := by
  have : (-X : ℝ[X]) = C (-1) * X := by simp
  rw [this, comp_C_mul_X_coeff, mul_comm]

theorem P_swap (c s : ℝ) (u v : ℕ) : P s c u v = (P c s v u).comp (-X) := by
  unfold P
  simp only [mul_comp, pow_comp, add_comp, sub_comp, C_comp, X_comp]
  rw [mul_comm]
  congr 2 <;> ring

theorem P_neg (c s : ℝ) (u v : ℕ) : P c (-s) u v = C ((-1) ^ u) * (P c s u v).comp (-X) := by
  unfold P
  simp only [mul_comp, pow_comp, add_comp, sub_comp, C_comp, X_comp]
  rw [C_pow, ← mul_assoc, ← mul_pow]
  congr 2 <;> simp <;> ring

theorem toNat_factorials (l : ℕ) (m : ℤ) :
    ((l + -m).toNat.factorial * (l - -m).toNat.factorial : ℝ) =
    ((l + m).toNat.factorial * (l - m).toNat.factorial : ℝ) := by
  rw [sub_neg_eq_add, ← sub_eq_add_neg, mul_comm]

theorem toNat_parity {l : ℕ} {m' : ℤ} (h' : |m'| ≤ l) : ((-1 : ℝ)) ^ (l + m').toNat = (-1) ^ (l + m'.natAbs) := by
  obtain ⟨a1, a2⟩ := abs_le.mp h'
  rcases Int.natAbs_eq m' with e | e
  · congr 1; omega
  · have : l + m'.natAbs = (l + m').toNat + 2 * m'.natAbs := by omega
    rw [this, pow_add, pow_mul]; simp

/-- Reflection at the equator: `d^l_{m'm}(π - θ) = (-1)^{l+m'} d^l_{m',-m}(θ)`. -/
theorem wignerD_pi_sub (l : ℕ) {m' m : ℤ} (h' : |m'| ≤ l) (h : |m| ≤ l) (θ : ℝ) :
    wignerD l m' m (Real.pi - θ) = (-1) ^ (l + m'.natAbs) * wignerD l m' (-m) θ := by
  rw [wignerD_eq_coeff l h' h, wignerD_eq_coeff l h' (by rwa [abs_neg]), toNat_factorials]
  have e : (Real.pi - θ) / 2 = Real.pi / 2 - θ / 2 := by ring
  rw [e, Real.cos_pi_div_two_sub, Real.sin_pi_div_two_sub, P_swap, comp_neg_coeff, toNat_parity h',
    sub_neg_eq_add, ← sub_eq_add_neg]
  ring

/-- `d^l_{m'm}(-θ) = (-1)^{m'+m} d^l_{m'm}(θ)` -/
theorem wignerD_neg (l : ℕ) {m' m : ℤ} (h' : |m'| ≤ l) (h : |m| ≤ l) (θ : ℝ) :
    wignerD l m' m (-θ) = (-1) ^ (m'.natAbs + m.natAbs) * wignerD l m' m θ := by
  rw [wignerD_eq_coeff l h' h, wignerD_eq_coeff l h' h]
  have e : -θ / 2 = -(θ / 2) := by ring
  rw [e, Real.cos_neg, Real.sin_neg, P_neg, coeff_C_mul, comp_neg_coeff, toNat_parity h', toNat_parity h]
  have : ((-1 : ℝ)) ^ (m'.natAbs + m.natAbs) = (-1) ^ (l + m.natAbs) * (-1) ^ (l + m'.natAbs) := by
    rw [← pow_add, show l + m.natAbs + (l + m'.natAbs) = (m'.natAbs + m.natAbs) + 2 * l by ring,
      pow_add _ _ (2 * l), pow_mul (-1 : ℝ) 2 l]; simp
  rw [this]; ring

theorem P_reflect (c s : ℝ) (u v : ℕ) {k : ℕ} (hk : k ≤ u + v) :
    (P c s v u).coeff (u + v - k) = (-1) ^ (u + k) * (P c s u v).coeff k := by
  have hA : ∀ n : ℕ, ((C c * X + C s) ^ n : ℝ[X]).reflect n = ((C s * X + C c) ^ n : ℝ[X]) := by
    intro n
    ext i
    rw [coeff_reflect]
    by_cases hi : i ≤ n
    · rw [revAt_le hi, coeff_A _ _ _ _ (by omega), coeff_A _ _ _ _ hi, Nat.choose_symm hi,
        show n - (n - i) = i by omega]; ring
    · rw [revAt_eq_self_of_lt (by omega), coeff_A_gt _ _ _ _ (by omega), coeff_A_gt _ _ _ _ (by omega)]
  have hB : ∀ n : ℕ, ((C c - C s * X) ^ n : ℝ[X]).reflect n = ((C c * X + C (-s)) ^ n : ℝ[X]) := by
    intro n
    ext i
    rw [coeff_reflect]
    by_cases hi : i ≤ n
    · rw [revAt_le hi, coeff_B _ _ _ _ (by omega), coeff_A _ _ _ _ hi, Nat.choose_symm hi,
        show n - (n - i) = i by omega, neg_pow s]; ring
    · rw [revAt_eq_self_of_lt (by omega), coeff_B_gt _ _ _ _ (by omega), coeff_A_gt _ _ _ _ (by omega)]
  have hd1 : ((C c * X + C s) ^ v : ℝ[X]).natDegree ≤ v := by
    refine natDegree_pow_le.trans ?_
    have : (C c * X + C s : ℝ[X]).natDegree ≤ 1 := natDegree_linear_le
    nlinarith
  have hd2 : ((C c - C s * X) ^ u : ℝ[X]).natDegree ≤ u := by
    refine natDegree_pow_le.trans ?_
    have e : (C c - C s * X : ℝ[X]) = C (-s) * X + C c := by simp; ring
    have : (C c - C s * X : ℝ[X]).natDegree ≤ 1 := by rw [e]; exact natDegree_linear_le
    nlinarith
  have h1 : (P c s v u).coeff (u + v - k) = ((P c s v u).reflect (v + u)).coeff k := by
    rw [coeff_reflect, revAt_le (by omega), Nat.add_comm u v]
  rw [h1, P, reflect_mul _ _ hd1 hd2, hA, hB]
  have h2 : (C s * X + C c : ℝ[X]) ^ v * (C c * X + C (-s)) ^ u =
      C ((-1) ^ u) * (P c s u v).comp (-X) := by
    unfold P
    simp only [mul_comp, pow_comp, add_comp, sub_comp, C_comp, X_comp]
    rw [C_pow, ← mul_assoc, ← mul_pow, mul_comm]
    congr 2 <;> simp <;> ring
  rw [h2, coeff_C_mul, comp_neg_coeff, pow_add]
  ring

/-- `d^l_{-m',-m}(θ) = (-1)^{m'+m} d^l_{m'm}(θ)` -/
theorem wignerD_neg_neg (l : ℕ) {m' m : ℤ} (h' : |m'| ≤ l) (h : |m| ≤ l) (θ : ℝ) :
    wignerD l (-m') (-m) θ = (-1) ^ (m'.natAbs + m.natAbs) * wignerD l m' m θ := by
  rw [wignerD_eq_coeff l h' h, wignerD_eq_coeff l (by rwa [abs_neg]) (by rwa [abs_neg]), toNat_factorials,
    toNat_factorials, sub_neg_eq_add, ← sub_eq_add_neg]
  obtain ⟨a1, a2⟩ := abs_le.mp h'
  obtain ⟨b1, b2⟩ := abs_le.mp h
  have e : (l + -m').toNat = (l + m).toNat + (l - m).toNat - (l + m').toNat := by omega
  rw [e, P_reflect _ _ _ _ (by omega), pow_add, toNat_parity h', toNat_parity h]
  have : ((-1 : ℝ)) ^ (m'.natAbs + m.natAbs) = (-1) ^ (l + m.natAbs) * (-1) ^ (l + m'.natAbs) := by
    rw [← pow_add, show l + m.natAbs + (l + m'.natAbs) = (m'.natAbs + m.natAbs) + 2 * l by ring,
      pow_add _ _ (2 * l), pow_mul (-1 : ℝ) 2 l]; simp
  rw [this]; ring

/-- Transposition: `d^l_{mm'}(θ) = (-1)^{m'+m} d^l_{m'm}(θ)` -/
theorem wignerD_transpose (l : ℕ) {m' m : ℤ} (h' : |m'| ≤ l) (h : |m| ≤ l) (θ : ℝ) :
    wignerD l m m' θ = (-1) ^ (m'.natAbs + m.natAbs) * wignerD l m' m θ := by
  obtain ⟨a1, a2⟩ := abs_le.mp h'
  obtain ⟨b1, b2⟩ := abs_le.mp h
  unfold wignerD
  rw [mul_left_comm]
  congr 1
  · congr 2; ring
  rw [Finset.mul_sum]
  -- s' = s + m' - m
  refine Finset.sum_bij_ne_zero (fun s _ _ => (s + m - m' : ℤ).toNat) ?_ ?_ ?_ ?_
  · intro s hs hne
    have hc : 0 ≤ m - m' + s ∧ (s : ℤ) ≤ l + m' ∧ (s : ℤ) ≤ l - m := by
      by_contra hc; exact hne (if_neg hc)
    simp only [mem_range]; omega
  · intro s hs hne t ht hnt e
    have hc : 0 ≤ m - m' + s ∧ (s : ℤ) ≤ l + m' ∧ (s : ℤ) ≤ l - m := by
      by_contra hc; exact hne (if_neg hc)
    have hd : 0 ≤ m - m' + t ∧ (t : ℤ) ≤ l + m' ∧ (t : ℤ) ≤ l - m := by
      by_contra hc; exact hnt (if_neg hc)
    omega
  · intro t ht hne
    have hd : 0 ≤ m' - m + t ∧ (t : ℤ) ≤ l + m ∧ (t : ℤ) ≤ l - m' := by
      by_contra hc; exact hne (by rw [if_neg hc, mul_zero])
    rw [if_pos hd] at hne
    refine ⟨(t + m' - m : ℤ).toNat, by simp only [mem_range]; omega, ?_, by omega⟩
    rw [if_pos (by omega)]
    intro h0
    apply hne
    have q2 : (2 * l + m' - m - 2 * ((t + m' - m : ℤ).toNat : ℤ) : ℤ).toNat = (2 * l + m - m' - 2 * t : ℤ).toNat := by
      omega
    have q3 : (m - m' + 2 * ((t + m' - m : ℤ).toNat : ℤ) : ℤ).toNat = (m' - m + 2 * t : ℤ).toNat := by omega
    rw [q2, q3] at h0
    rw [div_eq_zero_iff] at h0
    rcases h0 with h0 | h0
    · rcases mul_eq_zero.mp h0 with h0 | h0
      · rcases mul_eq_zero.mp h0 with h0 | h0
        · exact absurd h0 (pow_ne_zero _ (by norm_num))
        · rw [h0]; simp
      · rw [h0]; simp
    · exact absurd h0 (by positivity)
  · intro s hs hne
    have hc : 0 ≤ m - m' + s ∧ (s : ℤ) ≤ l + m' ∧ (s : ℤ) ≤ l - m := by
      by_contra hc; exact hne (if_neg hc)
    rw [if_pos hc, if_pos (by omega)]
    have q2 : (2 * l + m - m' - 2 * ((s + m - m' : ℤ).toNat : ℤ) : ℤ).toNat = (2 * l + m' - m - 2 * s : ℤ).toNat := by
      omega
    have q3 : (m' - m + 2 * ((s + m - m' : ℤ).toNat : ℤ) : ℤ).toNat = (m - m' + 2 * s : ℤ).toNat := by omega
    have q4 : (l + m - ((s + m - m' : ℤ).toNat : ℤ) : ℤ).toNat = (l + m' - s : ℤ).toNat := by omega
    have q5 : (l - m' - ((s + m - m' : ℤ).toNat : ℤ) : ℤ).toNat = (l - m - s : ℤ).toNat := by omega
    have q6 : (m' - m + ((s + m - m' : ℤ).toNat : ℤ) : ℤ).toNat = s := by omega
    have q7 : (s + m - m' : ℤ).toNat = (m - m' + s : ℤ).toNat := by omega
    rw [q2, q3, q4, q5, q6, q7]
    have sg : ((-1 : ℝ)) ^ (m'.natAbs + m.natAbs) * (-1) ^ s = (-1) ^ (m - m' + s : ℤ).toNat := by
      rw [← pow_add]
      rcases Nat.even_or_odd (m'.natAbs + m.natAbs + s) with he | ho
      · have h2 : Even (m - m' + s : ℤ).toNat := by
          rw [Nat.even_iff] at he ⊢; omega
        rw [he.neg_one_pow, h2.neg_one_pow]
      · have h2 : Odd (m - m' + s : ℤ).toNat := by
          rw [Nat.odd_iff] at ho ⊢; omega
        rw [ho.neg_one_pow, h2.neg_one_pow]
    rw [← sg]
    rw [show ((((l : ℤ) + m' - s).toNat.factorial * s.factorial * (m - m' + s).toNat.factorial *
        ((l : ℤ) - m - s).toNat.factorial : ℕ) : ℝ) =
      ((((l : ℤ) + m' - s).toNat.factorial * (m - m' + s).toNat.factorial * s.factorial *
        ((l : ℤ) - m - s).toNat.factorial : ℕ) : ℝ) by push_cast; ring]
    ring

/-! ## the three-term recurrence -/

theorem deriv_P (c s : ℝ) (u v : ℕ) : derivative (P c s u v) =
    C (u * c) * ((C c * X + C s) ^ (u - 1) * (C c - C s * X) ^ v)
    - C (v * s) * ((C c * X + C s) ^ u * (C c - C s * X) ^ (v - 1)) := by
  unfold P
  rw [derivative_mul, derivative_pow, derivative_pow]
  simp only [derivative_add, derivative_mul, derivative_C, derivative_X, derivative_sub, C_mul, C_eq_natCast]
  ring

/-- The differential equation behind the recurrence. `u + v = 2L`, `u - v = 2m`. -/
theorem P_ode {c s : ℝ} (h : c ^ 2 + s ^ 2 = 1) (u v : ℕ) :
    C (2 * ((u : ℝ) + v)) * (X * derivative (X * derivative (P c s (u + 1) (v + 1)))
        - C ((u : ℝ) + v + 2) * (X * derivative (P c s (u + 1) (v + 1)))) =
      - C (((u : ℝ) + v) * (u + v + 2) * (u + v + 1) * (c ^ 2 - s ^ 2)) * (X * P c s u v)
      + C (((u : ℝ) + v + 1) * (u - v)) * (C 2 * (X * (X * derivative (P c s u v))) - C ((u : ℝ) + v) * (X * P c s u v))
      + C (2 * ((u : ℝ) + v + 2) * (u * v)) * (X ^ 2 * ((C c * X + C s) ^ (u - 1) * (C c - C s * X) ^ (v - 1))) := by
  have hC : (C c : ℝ[X]) ^ 2 + C s ^ 2 = 1 := by rw [← C_pow, ← C_pow, ← C_add, h, C_1]
  rw [deriv_P, deriv_P]
  simp only [derivative_mul, derivative_sub, derivative_X, derivative_C, derivative_pow, derivative_add,
    Nat.add_sub_cancel]
  unfold P
  have h2 : (C (2 : ℝ) : ℝ[X]) = 2 := rfl
  rcases u with _ | u <;> rcases v with _ | v
  all_goals
    simp only [Nat.add_sub_cancel, Nat.cast_zero, Nat.cast_add, Nat.cast_one, Nat.zero_sub, Nat.sub_self]
    simp only [C_mul, C_add, C_sub, C_pow, C_eq_natCast, C_1, C_0, pow_succ, pow_zero, h2]
  · ring
  · linear_combination (((v:ℝ[X])+1+1)*(-((v:ℝ[X])+1)) * (2*X*X*(-(((v:ℝ[X])+1) * C s * (C c - C s * X)^v))
      - ((v:ℝ[X])+1) * (X * (C c - C s * X)^(v+1)))) * hC
  · linear_combination (((u:ℝ[X])+1+1)*(((u:ℝ[X])+1)) * (2*X*X*((((u:ℝ[X])+1) * C c * (C c * X + C s)^u))
      - ((u:ℝ[X])+1) * (X * (C c * X + C s)^(u+1)))) * hC
  · linear_combination (((u:ℝ[X])+1+(v+1)+1)*(((u:ℝ[X])-v)) * (2*X*X*(((u:ℝ[X])+1) * C c * ((C c * X + C s)^u * (C c - C s * X)^(v+1))
        - ((v:ℝ[X])+1) * C s * ((C c * X + C s)^(u+1) * (C c - C s * X)^v))
      - ((u:ℝ[X])+1+(v+1)) * (X * ((C c * X + C s)^(u+1) * (C c - C s * X)^(v+1)))) +
      2 * ((u:ℝ[X])+1+(v+1)+2) * ((u+1)*(v+1)) * (C c ^ 2 + C s ^ 2 + 1) * (X ^ 2 * ((C c * X + C s)^u * (C c - C s * X)^v))) * hC

theorem P_coeff_rec {c s : ℝ} (h : c ^ 2 + s ^ 2 = 1) (u v a : ℕ) :
    2 * ((u : ℝ) + v) * (((a : ℝ) + 1) * ((a + 1) - (u + v + 2))) * (P c s (u + 1) (v + 1)).coeff (a + 1) =
      - (((u : ℝ) + v) * (u + v + 2) * (u + v + 1) * (c ^ 2 - s ^ 2)) * (P c s u v).coeff a
      + (((u : ℝ) + v + 1) * (u - v)) * ((2 * a - (u + v)) * (P c s u v).coeff a)
      + (2 * ((u : ℝ) + v + 2) * (u * v)) * (if a = 0 then 0 else (P c s (u - 1) (v - 1)).coeff (a - 1)) := by
  have e := congrArg (fun p => p.coeff (a + 1)) (P_ode h u v)
  have hX : (X ^ 2 * ((C c * X + C s) ^ (u - 1) * (C c - C s * X) ^ (v - 1)) : ℝ[X]).coeff (a + 1) =
      if a = 0 then 0 else (P c s (u - 1) (v - 1)).coeff (a - 1) := by
    rcases a with _ | a
    · rw [if_pos rfl, pow_two, mul_assoc, coeff_X_mul]; simp
    · rw [if_neg (by omega), pow_two, mul_assoc, coeff_X_mul, coeff_X_mul]; rfl
  have hd : ∀ (p : ℝ[X]) (k : ℕ), (X * derivative p).coeff k = k * p.coeff k := by
    intro p k
    rcases k with _ | k
    · simp
    · rw [coeff_X_mul, coeff_derivative]; push_cast; ring
  simp only [coeff_C_mul, coeff_sub, coeff_add, neg_mul, coeff_neg, coeff_X_mul, hX] at e
  have h1 : (derivative (X * derivative (P c s (u + 1) (v + 1)))).coeff a =
      ((a : ℝ) + 1) * (((a : ℝ) + 1) * (P c s (u + 1) (v + 1)).coeff (a + 1)) := by
    have := hd (X * derivative (P c s (u + 1) (v + 1))) (a + 1)
    rw [coeff_X_mul, hd] at this
    push_cast at this; exact this
  have h2 : (derivative (P c s (u + 1) (v + 1))).coeff a = ((a : ℝ) + 1) * (P c s (u + 1) (v + 1)).coeff (a + 1) := by
    rw [coeff_derivative]; ring
  have h3 : (X * derivative (P c s u v)).coeff a = (a : ℝ) * (P c s u v).coeff a := hd _ _
  rw [h1, h2, h3] at e
  linear_combination e

/-- Normalisation factor `√((l+m)!(l-m)!)`. -/
noncomputable def gN (l : ℕ) (m : ℤ) : ℝ := √((l + m).toNat.factorial * (l - m).toNat.factorial : ℝ)

theorem gN_pos (l : ℕ) (m : ℤ) : 0 < gN l m := by unfold gN; positivity

theorem gN_succ {l : ℕ} {m : ℤ} (h : |m| ≤ l) :
    gN (l + 1) m = √(((l : ℝ) + 1) ^ 2 - (m : ℝ) ^ 2) * gN l m := by
  obtain ⟨a1, a2⟩ := abs_le.mp h
  have hA : (((l + m).toNat : ℤ) : ℝ) = l + m := by
    rw [Int.toNat_of_nonneg (by omega)]; push_cast; ring
  have hB : (((l - m).toNat : ℤ) : ℝ) = l - m := by
    rw [Int.toNat_of_nonneg (by omega)]; push_cast; ring
  have e1 : (((l + 1 : ℕ) : ℤ) + m).toNat = (l + m).toNat + 1 := by omega
  have e2 : (((l + 1 : ℕ) : ℤ) - m).toNat = (l - m).toNat + 1 := by omega
  push_cast at hA hB
  have p : 0 ≤ ((l : ℝ) + 1) ^ 2 - (m : ℝ) ^ 2 := by
    have q1 : (0:ℝ) ≤ (l : ℝ) + m := by exact_mod_cast (by omega : (0:ℤ) ≤ l + m)
    have q2 : (0:ℝ) ≤ (l : ℝ) - m := by exact_mod_cast (by omega : (0:ℤ) ≤ l - m)
    nlinarith
  unfold gN
  rw [e1, e2, ← Real.sqrt_mul p, Nat.factorial_succ, Nat.factorial_succ]
  push_cast
  rw [hA, hB]
  congr 1; ring

theorem wignerD_eq (l : ℕ) {m' m : ℤ} (h' : |m'| ≤ l) (h : |m| ≤ l) (θ : ℝ) :
    wignerD l m' m θ = gN l m' / gN l m *
      (P (Real.cos (θ / 2)) (Real.sin (θ / 2)) (l + m).toNat (l - m).toNat).coeff (l + m').toNat :=
  wignerD_eq_coeff l h' h θ

theorem cos_half_sq (θ : ℝ) : Real.cos (θ / 2) ^ 2 - Real.sin (θ / 2) ^ 2 = Real.cos θ := by
  rw [← Real.cos_two_mul', mul_div_cancel₀ _ two_ne_zero]

theorem sq_sub_sq_pos {l : ℕ} {m : ℤ} (h : |m| ≤ l) : 0 < ((l : ℝ) + 1) ^ 2 - (m : ℝ) ^ 2 := by
  obtain ⟨b1, b2⟩ := abs_le.mp h
  have q1 : (0:ℝ) ≤ (l : ℝ) + m := by exact_mod_cast (by omega : (0:ℤ) ≤ l + m)
  have q2 : (0:ℝ) ≤ (l : ℝ) - m := by exact_mod_cast (by omega : (0:ℤ) ≤ l - m)
  have : ((l : ℝ) + 1) ^ 2 - (m : ℝ) ^ 2 = ((l : ℝ) + m + 1) * ((l : ℝ) - m + 1) := by ring
  rw [this]; positivity

theorem sq_sub_sq_zero {l : ℕ} {m : ℤ} (h : |m| = l) : (l : ℝ) ^ 2 - (m : ℝ) ^ 2 = 0 := by
  have : ((|m| : ℤ) : ℝ) = l := by exact_mod_cast h
  rw [← this, Int.cast_abs, sq_abs, sub_self]

/-- The lower term of the recurrence. -/
theorem wignerD_rec_low (l : ℕ) {m' m : ℤ} (h' : |m'| ≤ l) (h : |m| ≤ l) (θ : ℝ) {a u v : ℕ}
    (ha : (a : ℤ) = l + m') (hu : (u : ℤ) = l + m) (hv : (v : ℤ) = l - m) :
    (√((l : ℝ) ^ 2 - (m' : ℝ) ^ 2) * √((l : ℝ) ^ 2 - (m : ℝ) ^ 2)) * wignerD (l - 1) m' m θ =
      gN l m' / gN l m * (((l : ℝ) ^ 2 - (m : ℝ) ^ 2) *
        (if a = 0 then 0 else (P (Real.cos (θ / 2)) (Real.sin (θ / 2)) (u - 1) (v - 1)).coeff (a - 1))) := by
  have hn := abs_nonneg m
  have hn' := abs_nonneg m'
  by_cases hm : |m| = l
  · rw [sq_sub_sq_zero hm]; simp
  have hl1 : |m| ≤ ((l - 1 : ℕ) : ℤ) := by omega
  have f1 : (((l - 1 : ℕ) : ℤ) + m).toNat = u - 1 := by omega
  have f2 : (((l - 1 : ℕ) : ℤ) - m).toNat = v - 1 := by omega
  by_cases hm' : |m'| = l
  · rw [sq_sub_sq_zero hm']
    obtain ⟨q1, q2⟩ := abs_le.mp hl1
    split
    · simp
    · rw [coeff_P_gt]
      · simp
      · rcases abs_choice m' with h | h <;> omega
  have hl1' : |m'| ≤ ((l - 1 : ℕ) : ℤ) := by omega
  obtain ⟨k, rfl⟩ : ∃ k, l = k + 1 := ⟨l - 1, by omega⟩
  simp only [Nat.add_sub_cancel] at hl1 hl1' f1 f2 ⊢
  obtain ⟨c1, c2⟩ := abs_le.mp hl1'
  have f3 : ((k : ℤ) + m').toNat = a - 1 := by omega
  rw [if_neg (by omega), wignerD_eq k hl1' hl1, gN_succ hl1', gN_succ hl1, f1, f2, f3]
  push_cast
  have hg0 : gN k m ≠ 0 := (gN_pos k m).ne'
  have p0 := sq_sub_sq_pos hl1
  have hq : √(((k : ℝ) + 1) ^ 2 - (m : ℝ) ^ 2) ≠ 0 := (Real.sqrt_pos.mpr p0).ne'
  have hsq : √(((k : ℝ) + 1) ^ 2 - (m : ℝ) ^ 2) * √(((k : ℝ) + 1) ^ 2 - (m : ℝ) ^ 2) =
    ((k : ℝ) + 1) ^ 2 - (m : ℝ) ^ 2 := Real.mul_self_sqrt p0.le
  generalize (P (Real.cos (θ / 2)) (Real.sin (θ / 2)) (u - 1) (v - 1)).coeff (a - 1) = F
  generalize √(((k : ℝ) + 1) ^ 2 - (m : ℝ) ^ 2) = R at *
  generalize √(((k : ℝ) + 1) ^ 2 - (m' : ℝ) ^ 2) = R' at *
  rw [← hsq]
  field_simp

/-- The three-term recurrence of the d-functions in `l`. -/
theorem wignerD_rec (l : ℕ) {m' m : ℤ} (h' : |m'| ≤ l) (h : |m| ≤ l) (θ : ℝ) :
    l * (√(((l : ℝ) + 1) ^ 2 - (m' : ℝ) ^ 2) * √(((l : ℝ) + 1) ^ 2 - (m : ℝ) ^ 2)) * wignerD (l + 1) m' m θ =
      (2 * l + 1) * (l * (l + 1) * Real.cos θ - m' * m) * wignerD l m' m θ
      - (l + 1) * (√((l : ℝ) ^ 2 - (m' : ℝ) ^ 2) * √((l : ℝ) ^ 2 - (m : ℝ) ^ 2)) * wignerD (l - 1) m' m θ := by
  obtain ⟨a1, a2⟩ := abs_le.mp h'
  obtain ⟨b1, b2⟩ := abs_le.mp h
  have hs' : |m'| ≤ ((l + 1 : ℕ) : ℤ) := by push_cast; omega
  have hs : |m| ≤ ((l + 1 : ℕ) : ℤ) := by push_cast; omega
  rw [wignerD_eq (l + 1) hs' hs, wignerD_eq l h' h, gN_succ h', gN_succ h]
  set c := Real.cos (θ / 2)
  set s := Real.sin (θ / 2)
  have hcs : c ^ 2 + s ^ 2 = 1 := by rw [add_comm]; exact Real.sin_sq_add_cos_sq _
  have hcos : Real.cos θ = c ^ 2 - s ^ 2 := (cos_half_sq θ).symm
  obtain ⟨a, ha⟩ : ∃ a : ℕ, (a : ℤ) = l + m' := ⟨(l + m').toNat, by omega⟩
  obtain ⟨u, hu⟩ : ∃ a : ℕ, (a : ℤ) = l + m := ⟨(l + m).toNat, by omega⟩
  obtain ⟨v, hv⟩ : ∃ a : ℕ, (a : ℤ) = l - m := ⟨(l - m).toNat, by omega⟩
  have e1 : (((l + 1 : ℕ) : ℤ) + m).toNat = u + 1 := by omega
  have e2 : (((l + 1 : ℕ) : ℤ) - m).toNat = v + 1 := by omega
  have e3 : (((l + 1 : ℕ) : ℤ) + m').toNat = a + 1 := by omega
  have e4 : ((l : ℤ) + m).toNat = u := by omega
  have e5 : ((l : ℤ) - m).toNat = v := by omega
  have e6 : ((l : ℤ) + m').toNat = a := by omega
  rw [e1, e2, e3, e4, e5, e6]
  have hrec := P_coeff_rec hcs u v a
  have ru : (u : ℝ) = l + m := by exact_mod_cast hu
  have rv : (v : ℝ) = l - m := by exact_mod_cast hv
  have ra : (a : ℝ) = l + m' := by exact_mod_cast ha
  have hg : gN l m ≠ 0 := (gN_pos l m).ne'
  have hg' : gN l m' ≠ 0 := (gN_pos l m').ne'
  have p1 := sq_sub_sq_pos h
  have p1' := sq_sub_sq_pos h'
  have hq1 : √(((l : ℝ) + 1) ^ 2 - (m : ℝ) ^ 2) ≠ 0 := (Real.sqrt_pos.mpr p1).ne'
  have hsq' : √(((l : ℝ) + 1) ^ 2 - (m' : ℝ) ^ 2) * √(((l : ℝ) + 1) ^ 2 - (m' : ℝ) ^ 2) =
      ((l : ℝ) + 1) ^ 2 - (m' : ℝ) ^ 2 := Real.mul_self_sqrt p1'.le
  have hlow := wignerD_rec_low l h' h θ ha hu hv
  rw [show ((l : ℝ) + 1) * (√((l : ℝ) ^ 2 - (m' : ℝ) ^ 2) * √((l : ℝ) ^ 2 - (m : ℝ) ^ 2)) * wignerD (l - 1) m' m θ =
    ((l : ℝ) + 1) * ((√((l : ℝ) ^ 2 - (m' : ℝ) ^ 2) * √((l : ℝ) ^ 2 - (m : ℝ) ^ 2)) * wignerD (l - 1) m' m θ) by ring,
    hlow, hcos]
  set G := gN l m' / gN l m with hG
  have hup : √(((l : ℝ) + 1) ^ 2 - (m' : ℝ) ^ 2) * √(((l : ℝ) + 1) ^ 2 - (m : ℝ) ^ 2) *
      (√(((l : ℝ) + 1) ^ 2 - (m' : ℝ) ^ 2) * gN l m' / (√(((l : ℝ) + 1) ^ 2 - (m : ℝ) ^ 2) * gN l m)) =
      (((l : ℝ) + 1) ^ 2 - (m' : ℝ) ^ 2) * G := by
    rw [hG]
    generalize √(((l : ℝ) + 1) ^ 2 - (m : ℝ) ^ 2) = R at *
    generalize √(((l : ℝ) + 1) ^ 2 - (m' : ℝ) ^ 2) = R' at *
    rw [← hsq']
    field_simp
  rw [show (l : ℝ) * (√(((l : ℝ) + 1) ^ 2 - (m' : ℝ) ^ 2) * √(((l : ℝ) + 1) ^ 2 - (m : ℝ) ^ 2)) *
      (√(((l : ℝ) + 1) ^ 2 - (m' : ℝ) ^ 2) * gN l m' / (√(((l : ℝ) + 1) ^ 2 - (m : ℝ) ^ 2) * gN l m) *
        (P c s (u + 1) (v + 1)).coeff (a + 1)) =
    (l : ℝ) * (√(((l : ℝ) + 1) ^ 2 - (m' : ℝ) ^ 2) * √(((l : ℝ) + 1) ^ 2 - (m : ℝ) ^ 2) *
      (√(((l : ℝ) + 1) ^ 2 - (m' : ℝ) ^ 2) * gN l m' / (√(((l : ℝ) + 1) ^ 2 - (m : ℝ) ^ 2) * gN l m))) *
        (P c s (u + 1) (v + 1)).coeff (a + 1) by ring, hup]
  rw [ru, rv, ra] at hrec
  linear_combination (-G / 4) * hrec

/-! ## values at the lowest degree -/

theorem gN_top (l : ℕ) : gN l l = √((2 * l).factorial : ℝ) ∧ gN l (-l) = √((2 * l).factorial : ℝ) := by
  unfold gN
  have e1 : ((l : ℤ) + l).toNat = 2 * l := by omega
  have e2 : ((l : ℤ) - l).toNat = 0 := by omega
  have e3 : ((l : ℤ) + -l).toNat = 0 := by omega
  have e4 : ((l : ℤ) - -l).toNat = 2 * l := by omega
  rw [e1, e2, e3, e4]; simp

theorem binom_sqrt (l : ℕ) {m : ℤ} (h : |m| ≤ l) :
    gN l m / √((2 * l).factorial : ℝ) * ((2 * l).choose (l + m).toNat : ℝ) = √((2 * l).choose (l + m).toNat : ℝ) := by
  obtain ⟨a1, a2⟩ := abs_le.mp h
  have hk : (l + m).toNat ≤ 2 * l := by omega
  have e := Nat.choose_mul_factorial_mul_factorial hk
  have e2 : 2 * l - (l + m).toNat = (l - m).toNat := by omega
  rw [e2] at e
  have e' : ((2 * l).choose (l + m).toNat : ℝ) * ((l + m).toNat.factorial * (l - m).toNat.factorial) =
      (2 * l).factorial := by rw [← mul_assoc]; exact_mod_cast e
  unfold gN
  rw [← e']
  have hc : (0:ℝ) < ((2 * l).choose (l + m).toNat : ℝ) := by exact_mod_cast Nat.choose_pos hk
  have hp : (0:ℝ) < (l + m).toNat.factorial * (l - m).toNat.factorial := by positivity
  generalize ((l + m).toNat.factorial * (l - m).toNat.factorial : ℝ) = B at *
  generalize ((2 * l).choose (l + m).toNat : ℝ) = A at *
  rw [Real.sqrt_mul hc.le]
  have h1 : √A ≠ 0 := (Real.sqrt_pos.mpr hc).ne'
  have h2 : √B ≠ 0 := (Real.sqrt_pos.mpr hp).ne'
  have h3 : √A * √A = A := Real.mul_self_sqrt hc.le
  field_simp
  rw [pow_two, h3]

/-- `d^l_{m',l}(θ) = √C(2l, l+m') cos^{l+m'}(θ/2) sin^{l-m'}(θ/2)` -/
theorem wignerD_right_top (l : ℕ) {m' : ℤ} (h' : |m'| ≤ l) (θ : ℝ) :
    wignerD l m' l θ = √((2 * l).choose (l + m').toNat : ℝ) *
      (Real.cos (θ / 2) ^ (l + m').toNat * Real.sin (θ / 2) ^ (l - m').toNat) := by
  obtain ⟨a1, a2⟩ := abs_le.mp h'
  rw [wignerD_eq l h' (by simp), (gN_top l).1]
  have e1 : ((l : ℤ) + l).toNat = 2 * l := by omega
  have e2 : ((l : ℤ) - l).toNat = 0 := by omega
  rw [e1, e2, P, pow_zero, mul_one, coeff_A _ _ _ _ (by omega), ← binom_sqrt l h',
    show 2 * l - (l + m').toNat = (l - m').toNat by omega]
  ring

/-- `d^l_{m',-l}(θ) = (-1)^{l+m'} √C(2l, l+m') cos^{l-m'}(θ/2) sin^{l+m'}(θ/2)` -/
theorem wignerD_right_bot (l : ℕ) {m' : ℤ} (h' : |m'| ≤ l) (θ : ℝ) :
    wignerD l m' (-l) θ = (-1) ^ (l + m').toNat * √((2 * l).choose (l + m').toNat : ℝ) *
      (Real.cos (θ / 2) ^ (l - m').toNat * Real.sin (θ / 2) ^ (l + m').toNat) := by
  obtain ⟨a1, a2⟩ := abs_le.mp h'
  rw [wignerD_eq l h' (by simp), (gN_top l).2]
  have e1 : ((l : ℤ) + -l).toNat = 0 := by omega
  have e2 : ((l : ℤ) - -l).toNat = 2 * l := by omega
  rw [e1, e2, P, pow_zero, one_mul, coeff_B _ _ _ _ (by omega), ← binom_sqrt l h',
    show 2 * l - (l + m').toNat = (l - m').toNat by omega]
  ring

/-- `d^1_{00} = cos θ`, `d^0_{00} = 1` -/
theorem wignerD_zero (θ : ℝ) : wignerD 0 0 0 θ = 1 ∧ wignerD 1 0 0 θ = Real.cos θ := by
  constructor
  · rw [wignerD_eq 0 (by simp) (by simp)]
    simp [P, gN]
  · rw [wignerD_eq 1 (by simp) (by simp), ← cos_half_sq θ]
    have : (P (Real.cos (θ / 2)) (Real.sin (θ / 2)) 1 1) =
        C (-(Real.cos (θ / 2) * Real.sin (θ / 2))) * X ^ 2 +
        C (Real.cos (θ / 2) ^ 2 - Real.sin (θ / 2) ^ 2) * X ^ 1 + C (Real.cos (θ / 2) * Real.sin (θ / 2)) * X ^ 0 := by
      unfold P; simp; ring
    have e : gN 1 0 / gN 1 0 = 1 := div_self (gN_pos _ _).ne'
    rw [e, one_mul]
    have e1 : (((1:ℕ) : ℤ) + 0).toNat = 1 := by simp
    have e2 : (((1:ℕ) : ℤ) - 0).toNat = 1 := by simp
    rw [e1, e2, this]
    simp only [coeff_add, coeff_C_mul, coeff_X_pow]
    simp

/-! ## unitarity -/

/-- Homogeneous evaluation of a polynomial of degree at most `n`. -/
noncomputable def hom (n : ℕ) (p Y Z : ℝ[X]) : ℝ[X] := ∑ a ∈ range (n + 1), C (p.coeff a) * (Y ^ a * Z ^ (n - a))

theorem hom_mul (n : ℕ) {p : ℝ[X]} (hp : p.coeff (n + 1) = 0) (x y : ℝ) (Y Z : ℝ[X]) :
    hom (n + 1) ((C x * X + C y) * p) Y Z = (C x * Y + C y * Z) * hom n p Y Z := by
  unfold hom
  have h1 : ∀ a, ((C x * X + C y) * p).coeff a = (if a = 0 then 0 else x * p.coeff (a - 1)) + y * p.coeff a := by
    intro a
    rw [add_mul, coeff_add, coeff_C_mul, mul_assoc, coeff_C_mul]
    rcases a with _ | a
    · simp
    · rw [coeff_X_mul]; simp
  have l1 : ∑ a ∈ range (n + 1 + 1), C (if a = 0 then 0 else x * p.coeff (a - 1)) * (Y ^ a * Z ^ (n + 1 - a)) =
      (C x * Y) * ∑ a ∈ range (n + 1), C (p.coeff a) * (Y ^ a * Z ^ (n - a)) := by
    rw [sum_range_succ', if_pos rfl, C_0, zero_mul, add_zero, mul_sum]
    apply sum_congr rfl
    intro a ha
    rw [if_neg (Nat.succ_ne_zero _), Nat.add_sub_cancel, show n + 1 - (a + 1) = n - a by omega, C_mul, pow_succ]; ring
  have l2 : ∑ a ∈ range (n + 1 + 1), C (y * p.coeff a) * (Y ^ a * Z ^ (n + 1 - a)) =
      (C y * Z) * ∑ a ∈ range (n + 1), C (p.coeff a) * (Y ^ a * Z ^ (n - a)) := by
    rw [sum_range_succ, hp, mul_zero, C_0, zero_mul, add_zero, mul_sum]
    apply sum_congr rfl
    intro a ha
    simp only [mem_range] at ha
    rw [show n + 1 - a = (n - a) + 1 by omega, C_mul, pow_succ]; ring
  rw [add_mul (C x * Y), ← l1, ← l2, ← sum_add_distrib]
  apply sum_congr rfl
  intro a _
  rw [h1, C_add, add_mul]

theorem hom_P (c s : ℝ) (u v : ℕ) (Y Z : ℝ[X]) :
    hom (u + v) (P c s u v) Y Z = (C c * Y + C s * Z) ^ u * (C c * Z - C s * Y) ^ v := by
  induction u with
  | zero =>
    induction v with
    | zero => simp [hom, P]
    | succ v ih =>
      have e : P c s 0 (v + 1) = (C (-s) * X + C c) * P c s 0 v := by unfold P; simp; ring
      rw [e, show 0 + (v + 1) = (0 + v) + 1 by ring, hom_mul _ (coeff_P_gt _ _ _ _ _ (by omega)), ih]
      simp; ring
  | succ u ih =>
    have e : P c s (u + 1) v = (C c * X + C s) * P c s u v := by unfold P; ring
    rw [e, show u + 1 + v = (u + v) + 1 by ring, hom_mul _ (coeff_P_gt _ _ _ _ _ (by omega)), ih]
    ring

theorem P_compose {c s : ℝ} (h : c ^ 2 + s ^ 2 = 1) (n b : ℕ) (hb : b ≤ n) :
    ∑ a ∈ range (n + 1), C ((P c s b (n - b)).coeff a) * P c (-s) a (n - a) = X ^ b := by
  have := hom_P c s b (n - b) (C c * X + C (-s)) (C c - C (-s) * X)
  unfold hom at this
  rw [show b + (n - b) = n by omega] at this
  unfold P at this ⊢
  rw [this]
  have hC : (C c : ℝ[X]) ^ 2 + C s ^ 2 = 1 := by rw [← C_pow, ← C_pow, ← C_add, h, C_1]
  have e1 : (C c * (C c * X + C (-s)) + C s * (C c - C (-s) * X) : ℝ[X]) = X := by
    simp only [C_neg]; linear_combination X * hC
  have e2 : (C c * (C c - C (-s) * X) - C s * (C c * X + C (-s)) : ℝ[X]) = 1 := by
    simp only [C_neg]; linear_combination hC
  rw [e1, e2, one_pow, mul_one]

/-- Columns of `d` are unit vectors. -/
theorem wignerD_unit (l : ℕ) {m : ℤ} (h : |m| ≤ l) (θ : ℝ) :
    ∑ a ∈ range (2 * l + 1), wignerD l ((a : ℤ) - l) m θ ^ 2 = 1 := by
  obtain ⟨b1, b2⟩ := abs_le.mp h
  set c := Real.cos (θ / 2) with hc
  set s := Real.sin (θ / 2) with hs
  have hcs : c ^ 2 + s ^ 2 = 1 := by rw [add_comm]; exact Real.sin_sq_add_cos_sq _
  obtain ⟨b, hb⟩ : ∃ b : ℕ, (b : ℤ) = l + m := ⟨(l + m).toNat, by omega⟩
  have e := congrArg (fun p => p.coeff b) (P_compose hcs (2 * l) b (by omega))
  simp only [finset_sum_coeff, coeff_C_mul, coeff_X_pow_self] at e
  rw [← e]
  apply sum_congr rfl
  intro a ha
  simp only [mem_range] at ha
  have ha' : |(a : ℤ) - l| ≤ l := abs_le.mpr ⟨by omega, by omega⟩
  have h1 := wignerD_eq l ha' h θ
  have h2 := wignerD_eq l h ha' (-θ)
  have e1 : ((l : ℤ) + m).toNat = b := by omega
  have e2 : ((l : ℤ) - m).toNat = 2 * l - b := by omega
  have e3 : ((l : ℤ) + ((a : ℤ) - l)).toNat = a := by omega
  have e4 : ((l : ℤ) - ((a : ℤ) - l)).toNat = 2 * l - a := by omega
  rw [e1, e2, e3, ← hc, ← hs] at h1
  rw [e1, e3, e4, neg_div, Real.cos_neg, Real.sin_neg, ← hc, ← hs] at h2
  rw [wignerD_neg l h ha', wignerD_transpose l ha' h] at h2
  have sg : ((-1 : ℝ)) ^ (m.natAbs + ((a : ℤ) - l).natAbs) * (-1) ^ (((a : ℤ) - l).natAbs + m.natAbs) = 1 := by
    rw [add_comm m.natAbs, ← pow_add, ← two_mul, pow_mul]; simp
  rw [← mul_assoc, sg, one_mul] at h2
  have hg1 := (gN_pos l m).ne'
  have hg2 := (gN_pos l ((a : ℤ) - l)).ne'
  calc wignerD l ((a : ℤ) - l) m θ ^ 2 = wignerD l ((a : ℤ) - l) m θ * wignerD l ((a : ℤ) - l) m θ := pow_two _
    _ = _ := by
      nth_rw 1 [h1]
      rw [h2]
      field_simp

/-- `|d^l_{m'm}(θ)| ≤ 1` -/
theorem abs_wignerD_le_one (l : ℕ) {m' m : ℤ} (h' : |m'| ≤ l) (h : |m| ≤ l) (θ : ℝ) : |wignerD l m' m θ| ≤ 1 := by
  obtain ⟨a1, a2⟩ := abs_le.mp h'
  have hu := wignerD_unit l h θ
  have hmem : (l + m').toNat ∈ range (2 * l + 1) := by simp only [mem_range]; omega
  have hle := single_le_sum (f := fun a : ℕ => wignerD l ((a : ℤ) - l) m θ ^ 2) (fun i _ => sq_nonneg _) hmem
  rw [hu, show (((l + m').toNat : ℤ) - l) = m' by omega] at hle
  exact abs_le_one_iff_mul_self_le_one.mpr (by rw [← pow_two]; exact hle)

end Verif.Num
