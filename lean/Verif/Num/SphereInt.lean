import Verif.Num.SphereField
import Verif.Num.WignerOrth
import Mathlib.Analysis.SpecialFunctions.Integrals.Basic

/-!
# Functions on the sphere and integrals over it

Specification and mathematics; nothing here models code.
-/

namespace Verif.Num
open Finset Verif.Rot Matrix

/-- The integral over the unit sphere, `∫_0^π ∫_0^{2π} F(n(θ,φ)) sin θ dφ dθ`. -/
noncomputable def sphInt (F : (Fin 3 → ℝ) → ℂ) : ℂ :=
  ∫ θ in (0:ℝ)..Real.pi, ∫ φ in (0:ℝ)..(2 * Real.pi), F (dir θ φ) * Real.sin θ

/-- The value in the direction `n` of the function with coefficients `a`. -/
noncomputable def valueAt (a : ℕ → ℤ → ℂ) (L : ℕ) (n : Fin 3 → ℝ) : ℂ := field a L (Real.arccos (n 2)) (atan2 (n 1) (n 0))

/-- Every unit vector is the direction given by its polar angles. -/
theorem dir_angles {n : Fin 3 → ℝ} (h : n 0 ^ 2 + n 1 ^ 2 + n 2 ^ 2 = 1) : dir (Real.arccos (n 2)) (atan2 (n 1) (n 0)) = n := by
  have h2 : -1 ≤ n 2 ∧ n 2 ≤ 1 := by constructor <;> nlinarith [sq_nonneg (n 0), sq_nonneg (n 1), sq_nonneg (n 2)]
  have hs : Real.sin (Real.arccos (n 2)) = √(1 - n 2 ^ 2) := Real.sin_arccos _
  have hc : Real.cos (Real.arccos (n 2)) = n 2 := Real.cos_arccos h2.1 h2.2
  set r := √(1 - n 2 ^ 2) with hr
  have hrr : r * r = 1 - n 2 ^ 2 := Real.mul_self_sqrt (by nlinarith [sq_nonneg (n 0), sq_nonneg (n 1)])
  unfold dir
  rw [hs, hc]
  rcases (Real.sqrt_nonneg (1 - n 2 ^ 2)).eq_or_lt with h0 | h0
  · have hr0 : r = 0 := h0.symm
    rw [hr0] at hrr ⊢
    have z0 : n 0 = 0 := by nlinarith [sq_nonneg (n 0), sq_nonneg (n 1)]
    have z1 : n 1 = 0 := by nlinarith [sq_nonneg (n 0), sq_nonneg (n 1)]
    ext i; fin_cases i <;> simp [z0, z1]
  · have e := atan2_cos_sin (x := n 0) (y := n 1) (r := r) h0 (by nlinarith)
    have hn : r ≠ 0 := h0.ne'
    rw [e.1, e.2]
    ext i; fin_cases i <;> simp <;> field_simp

theorem dir_unit (θ φ : ℝ) : dir θ φ 0 ^ 2 + dir θ φ 1 ^ 2 + dir θ φ 2 ^ 2 = 1 := by
  unfold dir
  simp only [Matrix.cons_val_zero, Matrix.cons_val_one, Matrix.cons_val]
  have s1 := Real.sin_sq_add_cos_sq φ
  have s2 := Real.sin_sq_add_cos_sq θ
  linear_combination Real.sin θ ^ 2 * s1 + s2

theorem euler_zero : makeEuler 0 0 0 = 1 := by unfold makeEuler; apply ext9 <;> simp

theorem rotD_one (a : ℕ → ℤ → ℂ) {α β γ : ℝ} (hR : makeEuler α β γ = 1) (l : ℕ) {m : ℤ} (hm : |m| ≤ l) : rotD a α β γ l m = a l m := by
  obtain ⟨h1, h2⟩ := abs_le.mp hm
  unfold rotD
  rw [sum_eq_single_of_mem (l + m).toNat (by simp only [mem_range]; omega)]
  · rw [show (((l + m).toNat : ℤ) - l) = m by omega, wD_one l hm hm hR, if_pos rfl, one_mul]
  · intro i hi hne
    rw [wD_one l hm (range_abs hi) hR, if_neg (by omega), zero_mul]

theorem field_congr {a b : ℕ → ℤ → ℂ} {L : ℕ} (h : ∀ l m, l ≤ L → |m| ≤ (l : ℤ) → a l m = b l m) (θ φ : ℝ) : field a L θ φ = field b L θ φ := by
  unfold field
  apply sum_congr rfl; intro l hl
  apply sum_congr rfl; intro i hi
  rw [h l _ (by have := mem_range.mp hl; omega) (range_abs hi)]

/-- The field is a function of the direction. -/
theorem field_dir (a : ℕ → ℤ → ℂ) (L : ℕ) {θ φ θ' φ' : ℝ} (h : dir θ' φ' = dir θ φ) : field a L θ' φ' = field a L θ φ := by
  rw [← field_rotD a L (α := 0) (β := 0) (γ := 0) (θ' := θ') (φ' := φ') (θ := θ) (φ := φ) (by rw [euler_zero, one_mulVec, h])]
  exact field_congr (fun l m _ hm => (rotD_one a euler_zero l hm).symm) _ _

theorem valueAt_dir (a : ℕ → ℤ → ℂ) (L : ℕ) (θ φ : ℝ) : valueAt a L (dir θ φ) = field a L θ φ :=
  field_dir a L (dir_angles (dir_unit θ φ))

theorem mulVec_unit {R : M3} (h : Proper R) {n : Fin 3 → ℝ} (hn : n 0 ^ 2 + n 1 ^ 2 + n 2 ^ 2 = 1) :
    (R *ᵥ n) 0 ^ 2 + (R *ᵥ n) 1 ^ 2 + (R *ᵥ n) 2 ^ 2 = 1 := by
  have e := h.eqs
  simp only [mulVec, dotProduct, Fin.sum_univ_three]
  linear_combination n 0 ^ 2 * e.c00 + n 1 ^ 2 * e.c11 + n 2 ^ 2 * e.c22 + 2 * n 0 * n 1 * e.c01 + 2 * n 0 * n 2 * e.c02 +
    2 * n 1 * n 2 * e.c12 + hn

/-- Rotating the coefficients rotates the function: `f'(R n) = f(n)`. -/
theorem valueAt_rotate (a : ℕ → ℤ → ℂ) (L : ℕ) (α β γ : ℝ) {n : Fin 3 → ℝ} (hn : n 0 ^ 2 + n 1 ^ 2 + n 2 ^ 2 = 1) :
    valueAt (rotD a α β γ) L (makeEuler α β γ *ᵥ n) = valueAt a L n :=
  field_rotD a L (by rw [dir_angles hn, dir_angles (mulVec_unit (C51_euler_proper α β γ).1 hn)])

/-! ## orthonormality -/

theorem phase_integral (m k : ℤ) :
    ∫ φ in (0:ℝ)..(2 * Real.pi), Complex.exp (Complex.I * m * φ) * (starRingEnd ℂ) (Complex.exp (Complex.I * k * φ)) =
      if m = k then 2 * Real.pi else 0 := by
  have e : ∀ φ : ℝ, Complex.exp (Complex.I * m * φ) * (starRingEnd ℂ) (Complex.exp (Complex.I * k * φ)) =
      Complex.exp (Complex.I * (m - k : ℤ) * φ) := by
    intro φ
    rw [← Complex.exp_conj, ← Complex.exp_add]
    congr 1
    simp; ring
  simp only [e]
  by_cases h : m = k
  · subst h; simp
  · have hne : ((m - k : ℤ) : ℂ) ≠ 0 := by exact_mod_cast sub_ne_zero.mpr h
    rw [if_neg h, integral_exp_mul_complex (mul_ne_zero Complex.I_ne_zero hne)]
    have : Complex.exp (Complex.I * (m - k : ℤ) * ((2 * Real.pi : ℝ) : ℂ)) = 1 := by
      rw [Complex.exp_eq_one_iff]
      exact ⟨m - k, by push_cast; ring⟩
    rw [this]; simp

/-- The index set of an expansion. -/
def ixs (L : ℕ) : Finset (Σ _ : ℕ, ℕ) := (range (L + 1)).sigma fun l => range (2 * l + 1)

theorem field_ixs (a : ℕ → ℤ → ℂ) (L : ℕ) (θ φ : ℝ) :
    field a L θ φ = ∑ p ∈ ixs L, a p.1 ((p.2 : ℤ) - p.1) * sphY p.1 ((p.2 : ℤ) - p.1) θ φ := by
  unfold field ixs
  rw [sum_sigma]

noncomputable def normY (l : ℕ) : ℝ := √((2 * l + 1) / (4 * Real.pi))

theorem wD_transp_prod (l k : ℕ) {m : ℤ} (hl : |m| ≤ l) (hk : |m| ≤ k) (t : ℝ) :
    wignerD l m 0 t * wignerD k m 0 t = wignerD l 0 m t * wignerD k 0 m t := by
  rw [wignerD_transpose l (m' := m) (m := 0) hl (by simp), wignerD_transpose k (m' := m) (m := 0) hk (by simp)]
  have : ((-1 : ℝ)) ^ (m.natAbs + (0 : ℤ).natAbs) * (-1) ^ (m.natAbs + (0 : ℤ).natAbs) = 1 := by
    rw [← pow_add, ← two_mul, pow_mul]; simp
  linear_combination (-(wignerD l m 0 t * wignerD k m 0 t)) * this

theorem sphY_continuous_phi (l : ℕ) (m : ℤ) (θ : ℝ) : Continuous (fun φ : ℝ => sphY l m θ φ) := by
  unfold sphY; fun_prop

/-- The scalar product of two functions is that of their coefficients. -/
theorem sphInt_inner (a b : ℕ → ℤ → ℂ) (L : ℕ) :
    sphInt (fun n => valueAt a L n * (starRingEnd ℂ) (valueAt b L n)) =
      ∑ l ∈ range (L + 1), ∑ i ∈ range (2 * l + 1), a l ((i : ℤ) - l) * (starRingEnd ℂ) (b l ((i : ℤ) - l)) := by
  unfold sphInt
  simp only [valueAt_dir, field_ixs]
  let A : (Σ _ : ℕ, ℕ) → ℤ := fun p => (p.2 : ℤ) - p.1
  -- the inner integral
  have inner : ∀ θ : ℝ, ∫ φ in (0:ℝ)..(2 * Real.pi), (∑ p ∈ ixs L, a p.1 ((p.2 : ℤ) - p.1) * sphY p.1 ((p.2 : ℤ) - p.1) θ φ) *
      (starRingEnd ℂ) (∑ p ∈ ixs L, b p.1 ((p.2 : ℤ) - p.1) * sphY p.1 ((p.2 : ℤ) - p.1) θ φ) * Real.sin θ =
      ∑ p ∈ ixs L, ∑ q ∈ ixs L, (a p.1 (A p) * (starRingEnd ℂ) (b q.1 (A q)) * (normY p.1 * normY q.1 : ℝ) *
        (if A p = A q then 2 * Real.pi else 0)) * ((wignerD p.1 (A p) 0 θ * wignerD q.1 (A q) 0 θ * Real.sin θ : ℝ) : ℂ) := by
    intro θ
    have e : ∀ φ : ℝ, (∑ p ∈ ixs L, a p.1 ((p.2 : ℤ) - p.1) * sphY p.1 ((p.2 : ℤ) - p.1) θ φ) *
      (starRingEnd ℂ) (∑ p ∈ ixs L, b p.1 ((p.2 : ℤ) - p.1) * sphY p.1 ((p.2 : ℤ) - p.1) θ φ) * Real.sin θ =
      ∑ p ∈ ixs L, ∑ q ∈ ixs L, (a p.1 (A p) * (starRingEnd ℂ) (b q.1 (A q)) * (normY p.1 * normY q.1 : ℝ)) *
        ((wignerD p.1 (A p) 0 θ * wignerD q.1 (A q) 0 θ * Real.sin θ : ℝ) : ℂ) *
        (Complex.exp (Complex.I * (A p) * φ) * (starRingEnd ℂ) (Complex.exp (Complex.I * (A q) * φ))) := by
      intro φ
      rw [map_sum, sum_mul_sum, sum_mul]
      apply sum_congr rfl; intro p _
      rw [sum_mul]
      apply sum_congr rfl; intro q _
      unfold sphY
      rw [map_mul, map_mul, Complex.conj_ofReal]
      simp only [A, normY]
      push_cast
      ring
    simp only [e]
    rw [intervalIntegral.integral_finsetSum (fun p _ => Continuous.intervalIntegrable (by fun_prop) _ _)]
    apply sum_congr rfl; intro p _
    rw [intervalIntegral.integral_finsetSum (fun q _ => Continuous.intervalIntegrable (by fun_prop) _ _)]
    apply sum_congr rfl; intro q _
    rw [intervalIntegral.integral_const_mul, phase_integral]
    ring
  simp only [inner]
  have cw : ∀ (p q : Σ _ : ℕ, ℕ), Continuous fun θ : ℝ => ((wignerD p.1 (A p) 0 θ * wignerD q.1 (A q) 0 θ * Real.sin θ : ℝ) : ℂ) := by
    intro p q
    have h1 := continuous_wignerD p.1 (A p) 0
    have h2 := continuous_wignerD q.1 (A q) 0
    fun_prop
  rw [intervalIntegral.integral_finsetSum (fun p _ => Continuous.intervalIntegrable
    (by exact continuous_finsetSum _ fun q _ => continuous_const.mul (cw p q)) _ _)]
  have : ∑ l ∈ range (L + 1), ∑ i ∈ range (2 * l + 1), a l ((i : ℤ) - l) * (starRingEnd ℂ) (b l ((i : ℤ) - l)) =
      ∑ p ∈ ixs L, a p.1 (A p) * (starRingEnd ℂ) (b p.1 (A p)) := by unfold ixs; rw [sum_sigma]
  rw [this]
  apply sum_congr rfl; intro p hp
  rw [intervalIntegral.integral_finsetSum (fun q _ => Continuous.intervalIntegrable (by exact continuous_const.mul (cw p q)) _ _)]
  have bnd : ∀ q ∈ ixs L, |A q| ≤ q.1 := by
    intro q hq
    unfold ixs at hq
    rw [mem_sigma] at hq
    exact range_abs hq.2
  have hJ : ∀ (q : Σ _ : ℕ, ℕ), q ∈ ixs L → A p = A q →
      ∫ θ in (0:ℝ)..Real.pi, ((wignerD p.1 (A p) 0 θ * wignerD q.1 (A q) 0 θ * Real.sin θ : ℝ) : ℂ) = (J p.1 q.1 0 (A p) : ℂ) := by
    intro q hq hA
    rw [intervalIntegral.integral_ofReal]
    unfold J
    congr 2
    funext θ
    rw [← hA, wD_transp_prod _ _ (bnd p hp) (by rw [hA]; exact bnd q hq)]
  rw [sum_eq_single_of_mem p hp]
  · rw [intervalIntegral.integral_const_mul, hJ p hp rfl, J_self (by simp) (bnd p hp), if_pos rfl]
    have hn : normY p.1 * normY p.1 = (2 * p.1 + 1) / (4 * Real.pi) := Real.mul_self_sqrt (by positivity)
    rw [hn]
    have hp1 : (2 * (p.1 : ℂ) + 1) ≠ 0 := by exact_mod_cast (by omega : 2 * p.1 + 1 ≠ 0)
    have hpi : (Real.pi : ℂ) ≠ 0 := by exact_mod_cast Real.pi_ne_zero
    push_cast
    field_simp
    norm_num
  · intro q hq hne
    rw [intervalIntegral.integral_const_mul]
    by_cases hA : A p = A q
    · have hl : p.1 ≠ q.1 := by
        intro hl
        apply hne
        obtain ⟨l, i⟩ := p
        obtain ⟨k, j⟩ := q
        simp only [A] at hA hl
        subst hl
        have : i = j := by omega
        rw [this]
      rw [hJ q hq hA, J_ne hl (by simp) (by simp) (bnd p hp) (by rw [hA]; exact bnd q hq)]
      simp
    · rw [if_neg hA]; simp

/-- Orthonormality of the harmonics, in the usual form. -/
theorem sphY_orthonormal (l k : ℕ) {m j : ℤ} (hm : |m| ≤ l) (hj : |j| ≤ k) :
    ∫ θ in (0:ℝ)..Real.pi, ∫ φ in (0:ℝ)..(2 * Real.pi), sphY l m θ φ * (starRingEnd ℂ) (sphY k j θ φ) * Real.sin θ =
      if l = k ∧ m = j then 1 else 0 := by
  have sing : ∀ (K L : ℕ) (r : ℤ), |r| ≤ (K : ℤ) → K ≤ L → ∀ θ φ,
      field (fun l' m' => if l' = K ∧ m' = r then 1 else 0) L θ φ = sphY K r θ φ := by
    intro K L r hr hKL θ φ
    obtain ⟨r1, r2⟩ := abs_le.mp hr
    unfold field
    dsimp only
    rw [sum_eq_single_of_mem K (by simp only [mem_range]; omega)]
    · rw [sum_eq_single_of_mem (K + r).toNat (by simp only [mem_range]; omega)]
      · rw [show (((K + r).toNat : ℤ) - K) = r by omega, if_pos ⟨rfl, rfl⟩, one_mul]
      · intro i hi hne
        rw [if_neg (by omega), zero_mul]
    · intro l' _ hne
      apply sum_eq_zero
      intro i _
      rw [if_neg (fun h => hne h.1), zero_mul]
  have e := sphInt_inner (fun l' m' => if l' = l ∧ m' = m then 1 else 0) (fun l' m' => if l' = k ∧ m' = j then 1 else 0) (max l k)
  unfold sphInt at e
  simp only [valueAt_dir, sing l (max l k) m hm (le_max_left _ _), sing k (max l k) j hj (le_max_right _ _)] at e
  rw [e]
  obtain ⟨m1, m2⟩ := abs_le.mp hm
  rw [sum_eq_single_of_mem l (by simp only [mem_range]; omega)]
  · rw [sum_eq_single_of_mem (l + m).toNat (by simp only [mem_range]; omega)]
    · rw [show (((l + m).toNat : ℤ) - l) = m by omega, if_pos ⟨rfl, rfl⟩, one_mul]
      split <;> simp
    · intro i hi hne
      rw [if_neg (by omega), zero_mul]
  · intro l' _ hne
    apply sum_eq_zero
    intro i _
    rw [if_neg (fun h => hne h.1), zero_mul]

end Verif.Num
