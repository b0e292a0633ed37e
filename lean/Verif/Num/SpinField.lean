import Verif.Num.Integral
import Mathlib.Analysis.Calculus.ParametricIntervalIntegral

/-!
# Polarisation on the sphere: fields of spin two
-/

namespace Verif.Num
open Verif Finset Verif.Rot Matrix

/-! ## Specification -/

/-- The spin-two harmonic `₂Y_lm(θ,φ) = √((2l+1)/4π) d^l_{m,-2}(θ) e^{imφ}`. -/
noncomputable def spinY (l : ℕ) (m : ℤ) (θ φ : ℝ) : ℂ :=
  (√((2 * l + 1) / (4 * Real.pi)) * wignerD l m (-2) θ : ℝ) * Complex.exp (Complex.I * m * φ)

/-- `Q + iU = -Σ_{l ≥ 2} Σ_m (G_lm + i C_lm) ₂Y_lm` at colatitude `θ` and longitude `φ`, with respect to the local directions south
(`Q > 0`) and east; `p_lm = G_lm + i C_lm`. -/
noncomputable def polField (p : ℕ → ℤ → ℂ) (L : ℕ) (θ φ : ℝ) : ℂ :=
  -∑ l ∈ Icc 2 L, ∑ i ∈ range (2 * l + 1), p l ((i : ℤ) - l) * spinY l ((i : ℤ) - l) θ φ

/-- The same for a point `n` of the sphere. -/
noncomputable def polAt (p : ℕ → ℤ → ℂ) (L : ℕ) (n : Fin 3 → ℝ) : ℂ := polField p L (Real.arccos (n 2)) (atan2 (n 1) (n 0))

/-- The local directions south and east at `n`, and `n`, as columns of a matrix. -/
noncomputable def localFrame (n : Fin 3 → ℝ) : M3 := Rz (atan2 (n 1) (n 0)) * Ry (Real.arccos (n 2))

/-- The angle by which a frame `g` (its third column is the point of the sphere) is turned with respect to the local directions. -/
noncomputable def frameAngle (g : M3) : ℝ :=
  let h := (localFrame (g *ᵥ ![0, 0, 1]))ᵀ * g
  atan2 (h 1 0) (h 0 0)

/-- `Q + iU` with respect to the first two columns of `g`: `(Q + iU) e^{-2iχ}` for axes turned by `χ`. -/
noncomputable def polIn (p : ℕ → ℤ → ℂ) (L : ℕ) (g : M3) : ℂ :=
  polAt p L (g *ᵥ ![0, 0, 1]) * Complex.exp (-(2 * Complex.I * frameAngle g))

/-! ## Euler angles of a frame -/

theorem Rz_add (a b : ℝ) : Rz (a + b) = Rz a * Rz b := by
  unfold Rz
  apply ext9 <;> simp [mul_apply, Fin.sum_univ_three, Real.cos_add, Real.sin_add] <;> ring

theorem Rz_zero : Rz 0 = 1 := by unfold Rz; apply ext9 <;> simp

theorem localFrame_euler (n : Fin 3 → ℝ) : localFrame n = makeEuler (atan2 (n 1) (n 0)) (Real.arccos (n 2)) 0 := by
  rw [C51_euler_composition, Rz_zero, mul_one]; rfl

theorem unit_pole : (![0, 0, 1] : Fin 3 → ℝ) 0 ^ 2 + (![0, 0, 1] : Fin 3 → ℝ) 1 ^ 2 + (![0, 0, 1] : Fin 3 → ℝ) 2 ^ 2 = 1 := by simp

theorem localFrame_pole {n : Fin 3 → ℝ} (hn : n 0 ^ 2 + n 1 ^ 2 + n 2 ^ 2 = 1) : localFrame n *ᵥ ![0, 0, 1] = n := by
  rw [localFrame_euler, euler_pole, dir_angles hn]

/-- The polar angles of the pole of a frame and its angle are Euler angles of the frame. -/
theorem frame_euler {g : M3} (hg : Proper g) :
    g = makeEuler (atan2 ((g *ᵥ ![0, 0, 1]) 1) ((g *ᵥ ![0, 0, 1]) 0)) (Real.arccos ((g *ᵥ ![0, 0, 1]) 2)) (frameAngle g) := by
  have hn := mulVec_unit hg unit_pole
  set n := g *ᵥ ![0, 0, 1] with hndef
  have hF : Proper (localFrame n) := by rw [localFrame_euler]; exact (C51_euler_proper _ _ _).1
  obtain ⟨χ, hχ⟩ := euler_fibre hg (θ := Real.arccos (n 2)) (φ := atan2 (n 1) (n 0)) (by rw [dir_angles hn])
  have hh : (localFrame n)ᵀ * g = Rz χ := by
    rw [hχ, C51_euler_composition]
    have : Rz (atan2 (n 1) (n 0)) * Ry (Real.arccos (n 2)) * Rz χ = localFrame n * Rz χ := rfl
    rw [this, ← Matrix.mul_assoc, mul_eq_one_comm.mp hF.1, one_mul]
  have hcs := atan2_cos_sin (x := Real.cos χ) (y := Real.sin χ) (r := 1) one_pos (by nlinarith [Real.sin_sq_add_cos_sq χ])
  have hfa : frameAngle g = atan2 (Real.sin χ) (Real.cos χ) := by
    unfold frameAngle
    simp only [← hndef, hh]
    simp [Rz]
  rw [div_one, div_one] at hcs
  conv_lhs => rw [hχ]
  rw [C51_euler_composition, C51_euler_composition, hfa]
  congr 1
  unfold Rz
  rw [hcs.1, hcs.2]

theorem polIn_wD (p : ℕ → ℤ → ℂ) (L : ℕ) (α β γ : ℝ) : polIn p L (makeEuler α β γ) =
    -∑ l ∈ Icc 2 L, ∑ i ∈ range (2 * l + 1), p l ((i : ℤ) - l) * (normY l * (starRingEnd ℂ) (wD l ((i : ℤ) - l) (-2) α β γ)) := by
  set g := makeEuler α β γ with hg
  have hp : Proper g := (C51_euler_proper α β γ).1
  have he := frame_euler hp
  unfold polIn polAt polField
  rw [neg_mul, sum_mul]
  congr 1
  apply sum_congr rfl; intro l hl
  rw [sum_mul]
  apply sum_congr rfl; intro i hi
  have h2 : |(-2 : ℤ)| ≤ (l : ℤ) := by have := mem_Icc.mp hl; simp; omega
  rw [wD_congr l (range_abs hi) h2 (hg.symm.trans he)]
  unfold spinY wD normY
  rw [map_mul, map_mul, ← Complex.exp_conj, ← Complex.exp_conj, Complex.conj_ofReal]
  have e1 : ∀ (m : ℤ) (x : ℝ), (starRingEnd ℂ) (-(Complex.I * (m : ℂ) * (x : ℂ))) = Complex.I * m * x := by intro m x; simp
  rw [e1, e1]
  have e2 : Complex.I * ((-2 : ℤ) : ℂ) * (frameAngle g : ℂ) = -(2 * Complex.I * frameAngle g) := by push_cast; ring
  rw [e2]
  push_cast
  ring

/-- Rotating the coefficients rotates the polarised field. -/
theorem polIn_rotate (p : ℕ → ℤ → ℂ) (L : ℕ) (α β γ : ℝ) {g : M3} (hg : Proper g) :
    polIn (rotD p α β γ) L (makeEuler α β γ * g) = polIn p L g := by
  rw [frame_euler hg]
  generalize atan2 ((g *ᵥ ![0, 0, 1]) 1) ((g *ᵥ ![0, 0, 1]) 0) = φ
  generalize Real.arccos ((g *ᵥ ![0, 0, 1]) 2) = θ
  generalize frameAngle g = χ
  have hp : Proper (makeEuler α β γ * makeEuler φ θ χ) := (C51_euler_proper _ _ _).1.mul (C51_euler_proper _ _ _).1
  have he := frame_euler hp
  generalize atan2 (((makeEuler α β γ * makeEuler φ θ χ) *ᵥ ![0, 0, 1]) 1) (((makeEuler α β γ * makeEuler φ θ χ) *ᵥ ![0, 0, 1]) 0) = φ' at he
  generalize Real.arccos (((makeEuler α β γ * makeEuler φ θ χ) *ᵥ ![0, 0, 1]) 2) = θ' at he
  generalize frameAngle (makeEuler α β γ * makeEuler φ θ χ) = χ' at he
  rw [he, polIn_wD, polIn_wD]
  congr 1
  apply sum_congr rfl; intro l hl
  have h2 : |(-2 : ℤ)| ≤ (l : ℤ) := by have := mem_Icc.mp hl; simp; omega
  have e := rotD_inner p (fun l m => normY l * wD l m (-2) φ θ χ) α β γ l
  simp only [map_mul, Complex.conj_ofReal] at e
  rw [← e]
  apply sum_congr rfl
  intro i hi
  congr 1
  rw [wD_mul l (range_abs hi) h2 he.symm]
  unfold rotD
  rw [map_sum, map_sum, mul_sum]
  apply sum_congr rfl
  intro k _
  simp only [map_mul, Complex.conj_ofReal]
  ring

theorem polIn_local (p : ℕ → ℤ → ℂ) (L : ℕ) (n : Fin 3 → ℝ) : polIn p L (localFrame n) = polAt p L n := by
  rw [localFrame_euler, polIn_wD]
  unfold polAt polField
  congr 1
  apply sum_congr rfl; intro l _
  apply sum_congr rfl; intro i _
  unfold spinY wD normY
  rw [map_mul, map_mul, ← Complex.exp_conj, ← Complex.exp_conj, Complex.conj_ofReal]
  have e1 : ∀ (m : ℤ) (x : ℝ), (starRingEnd ℂ) (-(Complex.I * (m : ℂ) * (x : ℂ))) = Complex.I * m * x := by intro m x; simp
  rw [e1, e1]
  push_cast
  simp only [mul_zero, Complex.exp_zero, mul_one]
  ring

/-- The turned field at `n`. -/
theorem polIn_turned (p : ℕ → ℤ → ℂ) (L : ℕ) (α β γ : ℝ) (n : Fin 3 → ℝ) :
    polIn p L ((makeEuler α β γ)ᵀ * localFrame n) = polAt (rotD p α β γ) L n := by
  have hF : Proper (localFrame n) := by rw [localFrame_euler]; exact (C51_euler_proper _ _ _).1
  have hp : Proper ((makeEuler α β γ)ᵀ * localFrame n) := by
    rw [← euler_inv]; exact (C51_euler_proper _ _ _).1.mul hF
  rw [← polIn_rotate p L α β γ hp, ← Matrix.mul_assoc, mul_eq_one_comm.mp (C51_euler_proper α β γ).2, one_mul, polIn_local]

/-- Away from the poles the field at `dir θ φ` is the field at `θ, φ`. -/
theorem polAt_dir (p : ℕ → ℤ → ℂ) (L : ℕ) {θ : ℝ} (h0 : 0 < θ) (h1 : θ < Real.pi) (φ : ℝ) : polAt p L (dir θ φ) = polField p L θ φ := by
  have hs : 0 < Real.sin θ := Real.sin_pos_of_pos_of_lt_pi h0 h1
  have d0 : dir θ φ 0 = Real.sin θ * Real.cos φ := by simp [dir]
  have d1 : dir θ φ 1 = Real.sin θ * Real.sin φ := by simp [dir]
  have d2 : dir θ φ 2 = Real.cos θ := by simp [dir]
  have ht : Real.arccos (dir θ φ 2) = θ := by rw [d2]; exact Real.arccos_cos h0.le h1.le
  have hcs := atan2_cos_sin (x := dir θ φ 0) (y := dir θ φ 1) (r := Real.sin θ) hs (by
    rw [d0, d1]; nlinarith [Real.sin_sq_add_cos_sq φ])
  have c1 : Real.cos (atan2 (dir θ φ 1) (dir θ φ 0)) = Real.cos φ := by rw [hcs.1, d0]; field_simp
  have c2 : Real.sin (atan2 (dir θ φ 1) (dir θ φ 0)) = Real.sin φ := by rw [hcs.2, d1]; field_simp
  unfold polAt
  rw [ht]
  generalize atan2 (dir θ φ 1) (dir θ φ 0) = x at *
  have hE : Complex.exp (x * Complex.I) = Complex.exp (φ * Complex.I) := by
    rw [Complex.exp_mul_I, Complex.exp_mul_I, ← Complex.ofReal_cos, ← Complex.ofReal_sin, ← Complex.ofReal_cos, ← Complex.ofReal_sin, c1, c2]
  unfold polField spinY
  congr 1
  apply sum_congr rfl; intro l _
  apply sum_congr rfl; intro i _
  congr 2
  have : ∀ (m : ℤ) (y : ℝ), Complex.exp (Complex.I * m * y) = Complex.exp (y * Complex.I) ^ m := by
    intro m y; rw [← Complex.exp_int_mul]; congr 1; ring
  rw [this, this, hE]

theorem polField_ixs (p : ℕ → ℤ → ℂ) (L : ℕ) (θ φ : ℝ) :
    polField p L θ φ = -∑ q ∈ (Icc 2 L).sigma (fun l => range (2 * l + 1)), p q.1 ((q.2 : ℤ) - q.1) * spinY q.1 ((q.2 : ℤ) - q.1) θ φ := by
  unfold polField
  rw [sum_sigma]

theorem continuous_polField (p : ℕ → ℤ → ℂ) (L : ℕ) : Continuous fun x : ℝ × ℝ => polField p L x.1 x.2 := by
  unfold polField
  refine Continuous.neg (continuous_finsetSum _ fun l _ => continuous_finsetSum _ fun i _ => ?_)
  unfold spinY
  have h1 := continuous_wignerD l ((i : ℤ) - l) (-2)
  fun_prop

theorem wD_transp_prod2 (l k : ℕ) {m r : ℤ} (hl : |m| ≤ l) (hk : |m| ≤ k) (rl : |r| ≤ l) (rk : |r| ≤ k) (t : ℝ) :
    wignerD l m r t * wignerD k m r t = wignerD l r m t * wignerD k r m t := by
  rw [wignerD_transpose l (m' := m) (m := r) hl rl, wignerD_transpose k (m' := m) (m := r) hk rk]
  have : ((-1 : ℝ)) ^ (m.natAbs + r.natAbs) * (-1) ^ (m.natAbs + r.natAbs) = 1 := by
    rw [← pow_add, ← two_mul, pow_mul]; simp
  linear_combination (-(wignerD l m r t * wignerD k m r t)) * this

/-- The scalar product of two polarised fields, as an integral over angles. -/
theorem pol_inner_angles (a b : ℕ → ℤ → ℂ) (L : ℕ) :
    ∫ θ in (0:ℝ)..Real.pi, ∫ φ in (0:ℝ)..(2 * Real.pi), polField a L θ φ * (starRingEnd ℂ) (polField b L θ φ) * Real.sin θ =
      ∑ l ∈ Icc 2 L, ∑ i ∈ range (2 * l + 1), a l ((i : ℤ) - l) * (starRingEnd ℂ) (b l ((i : ℤ) - l)) := by
  simp only [polField_ixs]
  let A : (Σ _ : ℕ, ℕ) → ℤ := fun p => (p.2 : ℤ) - p.1
  set X : Finset (Σ _ : ℕ, ℕ) := (Icc 2 L).sigma (fun l => range (2 * l + 1)) with hX
  have inner : ∀ θ : ℝ, ∫ φ in (0:ℝ)..(2 * Real.pi), (-∑ p ∈ X, a p.1 ((p.2 : ℤ) - p.1) * spinY p.1 ((p.2 : ℤ) - p.1) θ φ) *
      (starRingEnd ℂ) (-∑ p ∈ X, b p.1 ((p.2 : ℤ) - p.1) * spinY p.1 ((p.2 : ℤ) - p.1) θ φ) * Real.sin θ =
      ∑ p ∈ X, ∑ q ∈ X, (a p.1 (A p) * (starRingEnd ℂ) (b q.1 (A q)) * (normY p.1 * normY q.1 : ℝ) *
        (if A p = A q then 2 * Real.pi else 0)) * ((wignerD p.1 (A p) (-2) θ * wignerD q.1 (A q) (-2) θ * Real.sin θ : ℝ) : ℂ) := by
    intro θ
    have e : ∀ φ : ℝ, (-∑ p ∈ X, a p.1 ((p.2 : ℤ) - p.1) * spinY p.1 ((p.2 : ℤ) - p.1) θ φ) *
      (starRingEnd ℂ) (-∑ p ∈ X, b p.1 ((p.2 : ℤ) - p.1) * spinY p.1 ((p.2 : ℤ) - p.1) θ φ) * Real.sin θ =
      ∑ p ∈ X, ∑ q ∈ X, (a p.1 (A p) * (starRingEnd ℂ) (b q.1 (A q)) * (normY p.1 * normY q.1 : ℝ)) *
        ((wignerD p.1 (A p) (-2) θ * wignerD q.1 (A q) (-2) θ * Real.sin θ : ℝ) : ℂ) *
        (Complex.exp (Complex.I * (A p) * φ) * (starRingEnd ℂ) (Complex.exp (Complex.I * (A q) * φ))) := by
      intro φ
      rw [map_neg, neg_mul_neg, map_sum, sum_mul_sum, sum_mul]
      apply sum_congr rfl; intro p _
      rw [sum_mul]
      apply sum_congr rfl; intro q _
      unfold spinY
      rw [map_mul, map_mul, Complex.conj_ofReal]
      simp only [A, normY]
      push_cast
      ring
    simp only [e]
    rw [intervalIntegral.integral_finsetSum (fun p _ => Continuous.intervalIntegrable (by fun_prop) _ _)]
    apply sum_congr rfl; intro p _
    rw [intervalIntegral.integral_finsetSum (fun q _ => Continuous.intervalIntegrable (by fun_prop) _ _)]
    apply sum_congr rfl; intro q _
    rw [intervalIntegral.integral_const_mul, phase_integral]
    ring
  simp only [inner]
  have cw : ∀ (p q : Σ _ : ℕ, ℕ), Continuous fun θ : ℝ => ((wignerD p.1 (A p) (-2) θ * wignerD q.1 (A q) (-2) θ * Real.sin θ : ℝ) : ℂ) := by
    intro p q
    have h1 := continuous_wignerD p.1 (A p) (-2)
    have h2 := continuous_wignerD q.1 (A q) (-2)
    fun_prop
  rw [intervalIntegral.integral_finsetSum (fun p _ => Continuous.intervalIntegrable
    (by exact continuous_finsetSum _ fun q _ => continuous_const.mul (cw p q)) _ _)]
  have : ∑ l ∈ Icc 2 L, ∑ i ∈ range (2 * l + 1), a l ((i : ℤ) - l) * (starRingEnd ℂ) (b l ((i : ℤ) - l)) =
      ∑ p ∈ X, a p.1 (A p) * (starRingEnd ℂ) (b p.1 (A p)) := by rw [hX, sum_sigma]
  rw [this]
  apply sum_congr rfl; intro p hp
  rw [intervalIntegral.integral_finsetSum (fun q _ => Continuous.intervalIntegrable (by exact continuous_const.mul (cw p q)) _ _)]
  have bnd : ∀ q ∈ X, |A q| ≤ q.1 := by
    intro q hq
    rw [hX, mem_sigma] at hq
    exact range_abs hq.2
  have bn2 : ∀ q ∈ X, |(-2 : ℤ)| ≤ q.1 := by
    intro q hq
    rw [hX, mem_sigma] at hq
    have := (mem_Icc.mp hq.1).1
    simp; omega
  have hJ : ∀ (q : Σ _ : ℕ, ℕ), q ∈ X → A p = A q →
      ∫ θ in (0:ℝ)..Real.pi, ((wignerD p.1 (A p) (-2) θ * wignerD q.1 (A q) (-2) θ * Real.sin θ : ℝ) : ℂ) = (J p.1 q.1 (-2) (A p) : ℂ) := by
    intro q hq hA
    rw [intervalIntegral.integral_ofReal]
    unfold J
    congr 2
    funext θ
    rw [← hA, wD_transp_prod2 _ _ (bnd p hp) (by rw [hA]; exact bnd q hq) (bn2 p hp) (bn2 q hq)]
  rw [sum_eq_single_of_mem p hp]
  · rw [intervalIntegral.integral_const_mul, hJ p hp rfl, J_self (bn2 p hp) (bnd p hp), if_pos rfl]
    have hn : normY p.1 * normY p.1 = (2 * p.1 + 1) / (4 * Real.pi) := Real.mul_self_sqrt (by positivity)
    rw [hn]
    have hp1 : (2 * (p.1 : ℂ) + 1) ≠ 0 := by exact_mod_cast (by omega : 2 * p.1 + 1 ≠ 0)
    have hpi : (Real.pi : ℂ) ≠ 0 := by exact_mod_cast Real.pi_ne_zero
    push_cast
    field_simp
    norm_num
  · intro q hq hne
    rw [intervalIntegral.integral_const_mul]
    by_cases hA : A p = A q
    · have hl : p.1 ≠ q.1 := by
        intro hl
        apply hne
        obtain ⟨l, i⟩ := p
        obtain ⟨k, j⟩ := q
        simp only [A] at hA hl
        subst hl
        have : i = j := by omega
        rw [this]
      rw [hJ q hq hA, J_ne hl (bn2 p hp) (bn2 q hq) (bnd p hp) (by rw [hA]; exact bnd q hq)]
      simp
    · rw [if_neg hA]; simp

/-- At the poles the weight vanishes. -/
theorem pol_weight (F : (Fin 3 → ℝ) → ℂ) (f : ℝ → ℝ → ℂ) (h : ∀ θ φ, 0 < θ → θ < Real.pi → F (dir θ φ) = f θ φ) :
    sphInt F = ∫ θ in (0:ℝ)..Real.pi, ∫ φ in (0:ℝ)..(2 * Real.pi), f θ φ * Real.sin θ := by
  unfold sphInt
  apply intervalIntegral.integral_congr
  intro θ hθ
  rw [Set.uIcc_of_le Real.pi_pos.le] at hθ
  dsimp only
  congr 1
  funext φ
  rcases eq_or_lt_of_le hθ.1 with e | e
  · rw [← e]; simp
  · rcases eq_or_lt_of_le hθ.2 with e' | e'
    · rw [e']; simp
    · rw [h θ φ e e']

theorem integral_re2 (f : ℝ → ℝ → ℂ) (cf : Continuous (Function.uncurry f)) (A B : ℝ) :
    ∫ θ in (0:ℝ)..A, ∫ φ in (0:ℝ)..B, ((f θ φ).re : ℂ) = ((∫ θ in (0:ℝ)..A, ∫ φ in (0:ℝ)..B, f θ φ).re : ℂ) := by
  have hin : ∀ θ : ℝ, ∫ φ in (0:ℝ)..B, ((f θ φ).re : ℂ) = (((∫ φ in (0:ℝ)..B, f θ φ).re : ℝ) : ℂ) := by
    intro θ
    have hc : Continuous (f θ) := cf.uncurry_left θ
    have := Complex.reCLM.intervalIntegral_comp_comm (hc.intervalIntegrable (μ := MeasureTheory.volume) 0 B)
    simp only [Complex.reCLM_apply] at this
    rw [← this, ← intervalIntegral.integral_ofReal]
  simp only [hin]
  have hc : Continuous fun θ : ℝ => ∫ φ in (0:ℝ)..B, f θ φ :=
    intervalIntegral.continuous_parametric_intervalIntegral_of_continuous' cf 0 B
  have := Complex.reCLM.intervalIntegral_comp_comm (hc.intervalIntegrable (μ := MeasureTheory.volume) 0 A)
  simp only [Complex.reCLM_apply] at this
  rw [← this, ← intervalIntegral.integral_ofReal]

/-- The real part of the scalar product. -/
theorem pol_inner_re (a b : ℕ → ℤ → ℂ) (L : ℕ) :
    sphInt (fun n => (((polAt a L n).re * (polAt b L n).re + (polAt a L n).im * (polAt b L n).im : ℝ) : ℂ)) =
      ((∑ l ∈ Icc 2 L, ∑ i ∈ range (2 * l + 1), a l ((i : ℤ) - l) * (starRingEnd ℂ) (b l ((i : ℤ) - l))).re : ℂ) := by
  rw [← pol_inner_angles, ← integral_re2 (fun θ φ => polField a L θ φ * (starRingEnd ℂ) (polField b L θ φ) * Real.sin θ) (by
    have h1 := continuous_polField a L
    have h2 := continuous_polField b L
    unfold Function.uncurry
    fun_prop), pol_weight _ (fun θ φ => ((polField a L θ φ * (starRingEnd ℂ) (polField b L θ φ)).re : ℂ)) (by
    intro θ φ h0 h1
    rw [polAt_dir a L h0 h1, polAt_dir b L h0 h1]
    simp [Complex.mul_re])]
  congr 1
  funext θ
  congr 1
  funext φ
  generalize polField a L θ φ * (starRingEnd ℂ) (polField b L θ φ) = z
  rw [← Complex.ofReal_mul]
  congr 1
  rw [Complex.re_mul_ofReal]

/-! ## The convolution of polarised fields -/

theorem overlap_conj {s b : ℕ → ℤ → ℂ} {L : ℕ} (hs : RealC L s) (hb : RealC L b) (R : M3) :
    (starRingEnd ℂ) (overlap s b L R) = overlap s b L R := by
  unfold overlap sphInt
  rw [← intervalIntegral.intervalIntegral_conj]
  congr 1; funext θ
  rw [← intervalIntegral.intervalIntegral_conj]
  congr 1; funext φ
  rw [map_mul, map_mul, Complex.conj_ofReal, valueAt_real hs, valueAt_real hb]

/-- Summed over gradient and curl, the integrals of the products of the functions are the integral of `Q Q + U U`. -/
theorem pol_overlap {G C g c : ℕ → ℤ → ℂ} {L : ℕ} (hG : RealC L G) (hC : RealC L C) (hg : RealC L g) (hc : RealC L c)
    (low : ∀ (l : ℕ) (m : ℤ), l < 2 → l ≤ L → |m| ≤ (l : ℤ) → g l m = 0 ∧ c l m = 0) (α β γ : ℝ) :
    overlap G g L (makeEuler α β γ) + overlap C c L (makeEuler α β γ) =
      sphInt (fun n =>
        let S := polAt (fun l m => G l m + Complex.I * C l m) L n
        let B := polIn (fun l m => g l m + Complex.I * c l m) L ((makeEuler α β γ)ᵀ * localFrame n)
        ((S.re * B.re + S.im * B.im : ℝ) : ℂ)) := by
  simp only [polIn_turned]
  rw [pol_inner_re]
  have hr : ∀ l m, rotD (fun l m => g l m + Complex.I * c l m) α β γ l m = rotD g α β γ l m + Complex.I * rotD c α β γ l m := by
    intro l m
    unfold rotD
    rw [mul_sum, ← sum_add_distrib]
    apply sum_congr rfl; intro i _
    ring
  have r1 := overlap_conj hG hg (makeEuler α β γ)
  have r2 := overlap_conj hC hc (makeEuler α β γ)
  have r3 := overlap_conj hG hc (makeEuler α β γ)
  have r4 := overlap_conj hC hg (makeEuler α β γ)
  have hsum : ∑ l ∈ Icc 2 L, ∑ i ∈ range (2 * l + 1), (G l ((i : ℤ) - l) + Complex.I * C l ((i : ℤ) - l)) *
      (starRingEnd ℂ) (rotD (fun l m => g l m + Complex.I * c l m) α β γ l ((i : ℤ) - l)) =
      overlap G g L (makeEuler α β γ) + overlap C c L (makeEuler α β γ) +
        Complex.I * (overlap C g L (makeEuler α β γ) - overlap G c L (makeEuler α β γ)) := by
    rw [overlap_inner _ hg, overlap_inner _ hc, overlap_inner _ hg, overlap_inner _ hc, ← sum_add_distrib, ← sum_sub_distrib, mul_sum,
      ← sum_add_distrib]
    have hsub : Icc 2 L ⊆ range (L + 1) := by intro l; simp only [mem_Icc, mem_range]; omega
    rw [sum_subset hsub (f := fun l => ∑ i ∈ range (2 * l + 1), (G l ((i : ℤ) - l) + Complex.I * C l ((i : ℤ) - l)) *
      (starRingEnd ℂ) (rotD (fun l m => g l m + Complex.I * c l m) α β γ l ((i : ℤ) - l))) (by
        intro l hl hl2
        apply sum_eq_zero; intro i _
        have : rotD (fun l m => g l m + Complex.I * c l m) α β γ l ((i : ℤ) - l) = 0 := by
          unfold rotD
          apply sum_eq_zero; intro k hk
          have hh := mem_range.mp hl
          have := low l ((k : ℤ) - l) (by simp only [mem_Icc] at hl2; omega) (by omega) (range_abs hk)
          dsimp only
          rw [this.1, this.2]; simp
        rw [this]; simp)]
    apply sum_congr rfl; intro l _
    rw [← sum_add_distrib, ← sum_sub_distrib, mul_sum, ← sum_add_distrib]
    apply sum_congr rfl; intro i _
    rw [hr, map_add, map_mul, Complex.conj_I]
    linear_combination (-(C l ((i : ℤ) - l) * (starRingEnd ℂ) (rotD c α β γ l ((i : ℤ) - l)))) * Complex.I_mul_I
  rw [hsum]
  rw [Complex.conj_eq_iff_re] at r1 r2
  rw [Complex.conj_eq_iff_im] at r3 r4
  conv_lhs => rw [← r1, ← r2]
  simp [r3, r4]

end Verif.Num
