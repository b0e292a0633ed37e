import Verif.Num.WignerGroup

/-!
# Spherical harmonics and their rotation

Specification of functions on the sphere given by expansion coefficients.  Nothing here mentions the program.
-/

namespace Verif.Num
open Finset Verif.Rot Matrix

/-- `Y_lm(θ,φ) = √((2l+1)/4π) d^l_{m0}(θ) e^{imφ}` -/
noncomputable def sphY (l : ℕ) (m : ℤ) (θ φ : ℝ) : ℂ :=
  (√((2 * l + 1) / (4 * Real.pi)) * wignerD l m 0 θ : ℝ) * Complex.exp (Complex.I * m * φ)

/-- The unit vector with colatitude `θ` and longitude `φ`. -/
noncomputable def dir (θ φ : ℝ) : Fin 3 → ℝ := ![Real.sin θ * Real.cos φ, Real.sin θ * Real.sin φ, Real.cos θ]

/-- `Σ_{l ≤ L} Σ_m a_lm Y_lm(θ,φ)` -/
noncomputable def field (a : ℕ → ℤ → ℂ) (L : ℕ) (θ φ : ℝ) : ℂ :=
  ∑ l ∈ range (L + 1), ∑ i ∈ range (2 * l + 1), a l ((i : ℤ) - l) * sphY l ((i : ℤ) - l) θ φ

theorem sphY_eq (l : ℕ) (m : ℤ) (θ φ χ : ℝ) :
    sphY l m θ φ = (√((2 * l + 1) / (4 * Real.pi)) : ℝ) * (starRingEnd ℂ) (wD l m 0 φ θ χ) := by
  unfold sphY wD
  rw [map_mul, map_mul, ← Complex.exp_conj, ← Complex.exp_conj, Complex.conj_ofReal]
  have e1 : (starRingEnd ℂ) (-(Complex.I * (m : ℂ) * (φ : ℂ))) = Complex.I * m * φ := by simp
  have e2 : Complex.exp ((starRingEnd ℂ) (-(Complex.I * ((0 : ℤ) : ℂ) * (χ : ℂ)))) = 1 := by simp
  rw [e1, e2, Complex.ofReal_mul]
  ring

/-- A proper rotation that keeps the pole is a rotation about the pole. -/
theorem rz_of_pole {R : M3} (h : Proper R) (h0 : R 0 2 = 0) (h1 : R 1 2 = 0) (h2 : R 2 2 = 1) : ∃ χ, R = Rz χ := by
  have e := h.eqs
  have hsq : R 2 0 * R 2 0 + R 2 1 * R 2 1 = 0 := by have := e.r22; rw [h2] at this; linarith
  have h20 : R 2 0 = 0 := by nlinarith [mul_self_nonneg (R 2 0), mul_self_nonneg (R 2 1)]
  have h21 : R 2 1 = 0 := by nlinarith [mul_self_nonneg (R 2 0), mul_self_nonneg (R 2 1)]
  have hc : R 0 0 * R 0 0 + R 1 0 * R 1 0 = 1 := by have := e.c00; rw [h20] at this; linarith
  have a := atan2_cos_sin (x := R 0 0) (y := R 1 0) one_pos (by linarith)
  refine ⟨atan2 (R 1 0) (R 0 0), ?_⟩
  unfold Rz
  rw [a.1, a.2]
  have k1 := e.k01
  have k2 := e.k11
  rw [h20, h2] at k1 k2
  rw [h1] at k1
  rw [h0] at k2
  apply ext9 <;> simp [h0, h1, h2, h20, h21] <;> linarith

/-- Two rotations that move the pole to the same point differ by a rotation about the pole. -/
theorem euler_fibre {R : M3} (h : Proper R) {θ φ : ℝ} (hd : R *ᵥ ![0, 0, 1] = dir θ φ) : ∃ χ, R = makeEuler φ θ χ := by
  have c : ∀ i, R i 2 = dir θ φ i := by
    intro i
    rw [← hd]
    simp [mulVec, dotProduct, Fin.sum_univ_three]
  have c0 := c 0; have c1 := c 1; have c2 := c 2
  simp only [dir, Matrix.cons_val_zero, Matrix.cons_val_one, Matrix.cons_val] at c0 c1 c2
  set A := makeEuler φ θ 0 with hA
  have pA := (C51_euler_proper φ θ 0)
  have s1 := Real.sin_sq_add_cos_sq φ
  have s2 := Real.sin_sq_add_cos_sq θ
  obtain ⟨χ, hχ⟩ := rz_of_pole (R := Aᵀ * R) (pA.1.transpose.mul h) (by
      rw [hA]; unfold makeEuler; simp [mul_apply, Fin.sum_univ_three, c0, c1, c2]; linear_combination (Real.sin θ * Real.cos θ) * s1) (by
      rw [hA]; unfold makeEuler; simp [mul_apply, Fin.sum_univ_three, c0, c1, c2]; ring) (by
      rw [hA]; unfold makeEuler; simp [mul_apply, Fin.sum_univ_three, c0, c1, c2]; linear_combination (Real.sin θ ^ 2) * s1 + s2)
  refine ⟨χ, ?_⟩
  have : R = A * Rz χ := by rw [← hχ, ← mul_assoc, pA.1.1, one_mul]
  rw [this, hA, C51_euler_composition, C51_euler_composition]
  have : Rz 0 = 1 := by unfold Rz; apply ext9 <;> simp
  rw [this, mul_one]

theorem euler_pole (α β γ : ℝ) : makeEuler α β γ *ᵥ ![0, 0, 1] = dir β α := by
  unfold makeEuler dir
  ext i; fin_cases i <;> simp [mulVec, dotProduct, Fin.sum_univ_three] <;> ring

/-- Rotating the coefficients of one degree. -/
noncomputable def rotD (a : ℕ → ℤ → ℂ) (α β γ : ℝ) (l : ℕ) (m : ℤ) : ℂ :=
  ∑ i ∈ range (2 * l + 1), wD l m ((i : ℤ) - l) α β γ * a l ((i : ℤ) - l)

theorem range_abs {l i : ℕ} (hi : i ∈ range (2 * l + 1)) : |(i : ℤ) - l| ≤ l := by
  have := mem_range.mp hi
  exact abs_le.mpr ⟨by omega, by omega⟩

/-- Unitarity: rotating both factors of a scalar product. -/
theorem rotD_inner (a b : ℕ → ℤ → ℂ) (α β γ : ℝ) (l : ℕ) :
    ∑ i ∈ range (2 * l + 1), rotD a α β γ l ((i : ℤ) - l) * (starRingEnd ℂ) (rotD b α β γ l ((i : ℤ) - l)) =
    ∑ i ∈ range (2 * l + 1), a l ((i : ℤ) - l) * (starRingEnd ℂ) (b l ((i : ℤ) - l)) := by
  have hone : makeEuler 0 0 0 = makeEuler (-γ) (-β) (-α) * makeEuler α β γ := by
    rw [euler_inv, (C51_euler_proper α β γ).2]; unfold makeEuler; apply ext9 <;> simp
  have hone' : makeEuler 0 0 0 = 1 := by rw [hone, euler_inv, (C51_euler_proper α β γ).2]
  have key : ∀ j ∈ range (2 * l + 1), ∀ k ∈ range (2 * l + 1),
      ∑ i ∈ range (2 * l + 1), wD l ((i : ℤ) - l) ((j : ℤ) - l) α β γ * (starRingEnd ℂ) (wD l ((i : ℤ) - l) ((k : ℤ) - l) α β γ) =
      if k = j then 1 else 0 := by
    intro j hj k hk
    have h1 := wD_mul l (range_abs hk) (range_abs hj) hone
    rw [wD_one l (range_abs hk) (range_abs hj) hone'] at h1
    have : ((k : ℤ) - l = (j : ℤ) - l) ↔ k = j := by omega
    simp only [this] at h1
    rw [h1]
    apply sum_congr rfl
    intro i hi
    rw [wD_conj l (range_abs hi) (range_abs hk), mul_comm]
  unfold rotD
  calc _ = ∑ i ∈ range (2 * l + 1), ∑ j ∈ range (2 * l + 1), ∑ k ∈ range (2 * l + 1),
        (wD l ((i : ℤ) - l) ((j : ℤ) - l) α β γ * (starRingEnd ℂ) (wD l ((i : ℤ) - l) ((k : ℤ) - l) α β γ)) *
          (a l ((j : ℤ) - l) * (starRingEnd ℂ) (b l ((k : ℤ) - l))) := by
        apply sum_congr rfl; intro i _
        rw [map_sum, sum_mul_sum]
        apply sum_congr rfl; intro j _
        apply sum_congr rfl; intro k _
        rw [map_mul]; ring
    _ = ∑ j ∈ range (2 * l + 1), ∑ k ∈ range (2 * l + 1), (∑ i ∈ range (2 * l + 1),
        wD l ((i : ℤ) - l) ((j : ℤ) - l) α β γ * (starRingEnd ℂ) (wD l ((i : ℤ) - l) ((k : ℤ) - l) α β γ)) *
          (a l ((j : ℤ) - l) * (starRingEnd ℂ) (b l ((k : ℤ) - l))) := by
        rw [sum_comm]
        apply sum_congr rfl; intro j _
        rw [sum_comm]
        apply sum_congr rfl; intro k _
        rw [sum_mul]
    _ = _ := by
        apply sum_congr rfl; intro j hj
        rw [sum_congr rfl (fun k hk => by rw [key j hj k hk])]
        simp only [ite_mul, one_mul, zero_mul]
        rw [sum_ite_eq' (range (2 * l + 1)) j]
        rw [if_pos hj]

/-- The harmonics at a rotated point. -/
theorem sphY_rotate {α β γ θ φ θ' φ' : ℝ} (h : dir θ' φ' = makeEuler α β γ *ᵥ dir θ φ) (l : ℕ) {m : ℤ} (hm : |m| ≤ l) :
    sphY l m θ' φ' = ∑ i ∈ range (2 * l + 1), (starRingEnd ℂ) (wD l m ((i : ℤ) - l) α β γ) * sphY l ((i : ℤ) - l) θ φ := by
  have hp : Proper (makeEuler α β γ * makeEuler φ θ 0) := (C51_euler_proper _ _ _).1.mul (C51_euler_proper _ _ _).1
  obtain ⟨χ, hχ⟩ := euler_fibre hp (θ := θ') (φ := φ') (by rw [← mulVec_mulVec, euler_pole, h])
  rw [sphY_eq l m θ' φ' χ, wD_mul l hm (by simp) hχ.symm, map_sum, mul_sum]
  apply sum_congr rfl
  intro i _
  rw [sphY_eq l _ θ φ 0, map_mul]
  ring

/-- Rotating the coefficients rotates the field. -/
theorem field_rotD (a : ℕ → ℤ → ℂ) (L : ℕ) {α β γ θ φ θ' φ' : ℝ} (h : dir θ' φ' = makeEuler α β γ *ᵥ dir θ φ) :
    field (rotD a α β γ) L θ' φ' = field a L θ φ := by
  unfold field
  apply sum_congr rfl
  intro l _
  have e := rotD_inner a (fun l m => (starRingEnd ℂ) (sphY l m θ φ)) α β γ l
  simp only [Complex.conj_conj] at e
  rw [← e]
  apply sum_congr rfl
  intro i hi
  congr 1
  rw [sphY_rotate h l (range_abs hi)]
  unfold rotD
  rw [map_sum]
  apply sum_congr rfl
  intro k _
  rw [map_mul, Complex.conj_conj]

end Verif.Num
