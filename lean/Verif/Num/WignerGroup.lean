import Verif.Num.WignerD
import Verif.Util.Rot
import Mathlib.Analysis.SpecialFunctions.Trigonometric.Basic
import Mathlib.Analysis.Complex.Trigonometric

/-!
# The Wigner matrices represent the rotation group

`wD l m' m α β γ = e^{-im'α} d^l_{m'm}(β) e^{-imγ}` is a function of the matrix `Rz(α) Ry(β) Rz(γ)` only, and the matrix of a
product of two rotations is the product of the matrices.  Nothing here mentions the program, except that the matrix is the one
`Make_CPAC_Euler_Matrix` builds (`C51_euler_composition`).
-/

namespace Verif.Num
open Polynomial Finset Verif.Rot

/-- `D^l_{m'm}(α,β,γ) = e^{-im'α} d^l_{m'm}(β) e^{-imγ}` -/
noncomputable def wD (l : ℕ) (m' m : ℤ) (α β γ : ℝ) : ℂ :=
  Complex.exp (-(Complex.I * m' * α)) * (wignerD l m' m β : ℂ) * Complex.exp (-(Complex.I * m * γ))

/-! ## polynomials over the complex numbers -/

/-- `(aX + b)^u (conj a - conj b X)^v` -/
noncomputable def Q (U : ℂ × ℂ) (u v : ℕ) : ℂ[X] :=
  (C U.1 * X + C U.2) ^ u * (C ((starRingEnd ℂ) U.1) - C ((starRingEnd ℂ) U.2) * X) ^ v

theorem coeff_Q_gt (U : ℂ × ℂ) (u v k : ℕ) (hk : u + v < k) : (Q U u v).coeff k = 0 := by
  apply coeff_eq_zero_of_natDegree_lt
  refine lt_of_le_of_lt natDegree_mul_le ?_
  have h1 : ((C U.1 * X + C U.2) ^ u : ℂ[X]).natDegree ≤ u := by
    refine natDegree_pow_le.trans ?_
    have : (C U.1 * X + C U.2 : ℂ[X]).natDegree ≤ 1 := natDegree_linear_le
    nlinarith
  have h2 : ((C ((starRingEnd ℂ) U.1) - C ((starRingEnd ℂ) U.2) * X) ^ v : ℂ[X]).natDegree ≤ v := by
    refine natDegree_pow_le.trans ?_
    have e : (C ((starRingEnd ℂ) U.1) - C ((starRingEnd ℂ) U.2) * X : ℂ[X]) =
        C (-(starRingEnd ℂ) U.2) * X + C ((starRingEnd ℂ) U.1) := by rw [C_neg]; ring
    have : (C ((starRingEnd ℂ) U.1) - C ((starRingEnd ℂ) U.2) * X : ℂ[X]).natDegree ≤ 1 := by
      rw [e]; exact natDegree_linear_le
    nlinarith
  omega

/-- Homogeneous evaluation of a polynomial of degree at most `n`. -/
noncomputable def homC (n : ℕ) (p Y Z : ℂ[X]) : ℂ[X] := ∑ a ∈ range (n + 1), C (p.coeff a) * (Y ^ a * Z ^ (n - a))

theorem homC_mul (n : ℕ) {p : ℂ[X]} (hp : p.coeff (n + 1) = 0) (x y : ℂ) (Y Z : ℂ[X]) :
    homC (n + 1) ((C x * X + C y) * p) Y Z = (C x * Y + C y * Z) * homC n p Y Z := by
  unfold homC
  have h1 : ∀ a, ((C x * X + C y) * p).coeff a = (if a = 0 then 0 else x * p.coeff (a - 1)) + y * p.coeff a := by
    intro a
    rw [add_mul, coeff_add, coeff_C_mul, mul_assoc, coeff_C_mul]
    rcases a with _ | a
    · simp
    · rw [coeff_X_mul]; simp
  have l1 : ∑ a ∈ range (n + 1 + 1), C (if a = 0 then 0 else x * p.coeff (a - 1)) * (Y ^ a * Z ^ (n + 1 - a)) =
      (C x * Y) * ∑ a ∈ range (n + 1), C (p.coeff a) * (Y ^ a * Z ^ (n - a)) := by
    rw [sum_range_succ', if_pos rfl, C_0, zero_mul, add_zero, mul_sum]
    apply sum_congr rfl
    intro a ha
    rw [if_neg (Nat.succ_ne_zero _), Nat.add_sub_cancel, show n + 1 - (a + 1) = n - a by omega, C_mul, pow_succ]; ring
  have l2 : ∑ a ∈ range (n + 1 + 1), C (y * p.coeff a) * (Y ^ a * Z ^ (n + 1 - a)) =
      (C y * Z) * ∑ a ∈ range (n + 1), C (p.coeff a) * (Y ^ a * Z ^ (n - a)) := by
    rw [sum_range_succ, hp, mul_zero, C_0, zero_mul, add_zero, mul_sum]
    apply sum_congr rfl
    intro a ha
    simp only [mem_range] at ha
    rw [show n + 1 - a = (n - a) + 1 by omega, C_mul, pow_succ]; ring
  rw [add_mul (C x * Y), ← l1, ← l2, ← sum_add_distrib]
  apply sum_congr rfl
  intro a _
  rw [h1, C_add, add_mul]

theorem homC_Q (U : ℂ × ℂ) (u v : ℕ) (Y Z : ℂ[X]) :
    homC (u + v) (Q U u v) Y Z =
      (C U.1 * Y + C U.2 * Z) ^ u * (C ((starRingEnd ℂ) U.1) * Z - C ((starRingEnd ℂ) U.2) * Y) ^ v := by
  induction u with
  | zero =>
    induction v with
    | zero => simp [homC, Q]
    | succ v ih =>
      have e : Q U 0 (v + 1) = (C (-(starRingEnd ℂ) U.2) * X + C ((starRingEnd ℂ) U.1)) * Q U 0 v := by
        unfold Q; rw [C_neg]; ring
      rw [e, show 0 + (v + 1) = (0 + v) + 1 by ring, homC_mul _ (coeff_Q_gt _ _ _ _ (by omega)), ih, C_neg]
      ring
  | succ u ih =>
    have e : Q U (u + 1) v = (C U.1 * X + C U.2) * Q U u v := by unfold Q; ring
    rw [e, show u + 1 + v = (u + v) + 1 by ring, homC_mul _ (coeff_Q_gt _ _ _ _ (by omega)), ih]
    ring

/-- Product of two unit quaternions, as pairs of complex numbers. -/
noncomputable def su (U V : ℂ × ℂ) : ℂ × ℂ :=
  (U.1 * V.1 - U.2 * (starRingEnd ℂ) V.2, U.1 * V.2 + U.2 * (starRingEnd ℂ) V.1)

theorem Q_compose (U V : ℂ × ℂ) (n b : ℕ) (hb : b ≤ n) :
    ∑ a ∈ range (n + 1), C ((Q U b (n - b)).coeff a) * Q V a (n - a) = Q (su U V) b (n - b) := by
  have := homC_Q U b (n - b) (C V.1 * X + C V.2) (C ((starRingEnd ℂ) V.1) - C ((starRingEnd ℂ) V.2) * X)
  unfold homC at this
  rw [show b + (n - b) = n by omega] at this
  have e : ∀ a, Q V a (n - a) = (C V.1 * X + C V.2) ^ a * (C ((starRingEnd ℂ) V.1) - C ((starRingEnd ℂ) V.2) * X) ^ (n - a) :=
    fun a => rfl
  simp only [e, this]
  unfold Q su
  simp only [map_add, map_sub, map_mul, Complex.conj_conj]
  congr 2 <;> ring

/-! ## the matrix of a rotation -/

/-- The half-angle parameters of `Rz(α) Ry(β) Rz(γ)`. -/
noncomputable def half (α β γ : ℝ) : ℂ × ℂ :=
  ((Real.cos (β / 2) : ℂ) * Complex.exp (-(Complex.I * ((α + γ) / 2 : ℝ))),
   (Real.sin (β / 2) : ℂ) * Complex.exp (Complex.I * ((α - γ) / 2 : ℝ)))

theorem half_conj (α β γ : ℝ) :
    (starRingEnd ℂ) (half α β γ).1 = (Real.cos (β / 2) : ℂ) * Complex.exp (Complex.I * ((α + γ) / 2 : ℝ)) ∧
    (starRingEnd ℂ) (half α β γ).2 = (Real.sin (β / 2) : ℂ) * Complex.exp (-(Complex.I * ((α - γ) / 2 : ℝ))) := by
  unfold half
  constructor
  · dsimp only
    rw [map_mul, Complex.conj_ofReal, ← Complex.exp_conj]
    congr 2
    rw [map_neg, map_mul, Complex.conj_I, Complex.conj_ofReal, neg_mul, neg_neg]
  · dsimp only
    rw [map_mul, Complex.conj_ofReal, ← Complex.exp_conj]
    congr 2
    rw [map_mul, Complex.conj_I, Complex.conj_ofReal, neg_mul]

/-- Normalised coefficient. -/
noncomputable def DU (l : ℕ) (U : ℂ × ℂ) (m' m : ℤ) : ℂ :=
  (gN l m' : ℂ) / gN l m * (Q U (l + m).toNat (l - m).toNat).coeff (l + m').toNat

/-- The complex polynomial of a rotation is the real one with phases. -/
theorem Q_half (α β γ : ℝ) (u v k : ℕ) :
    (Q (half α β γ) u v).coeff k = Complex.exp (-(Complex.I * k * α)) *
      (((P (Real.cos (β / 2)) (Real.sin (β / 2)) u v).coeff k : ℝ) : ℂ) *
      Complex.exp (Complex.I * (((u : ℝ) + v) / 2 * α - ((u : ℝ) - v) / 2 * γ : ℝ)) := by
  set c := Real.cos (β / 2)
  set s := Real.sin (β / 2)
  set p : ℂ[X] := (P c s u v).map Complex.ofRealHom
  set w := Complex.exp (-(Complex.I * α))
  have hp : Q (half α β γ) u v = C (Complex.exp (Complex.I * (((u : ℝ) + v) / 2 * α - ((u : ℝ) - v) / 2 * γ : ℝ))) *
      p.comp (C w * X) := by
    have hpe : p.comp (C w * X) = (C (c : ℂ) * (C w * X) + C (s : ℂ)) ^ u * (C (c : ℂ) - C (s : ℂ) * (C w * X)) ^ v := by
      simp [p, P, Polynomial.map_mul, Polynomial.map_pow]
    have hph : Complex.exp (Complex.I * (((u : ℝ) + v) / 2 * α - ((u : ℝ) - v) / 2 * γ : ℝ)) =
        Complex.exp (Complex.I * ((α - γ) / 2 : ℝ)) ^ u * Complex.exp (Complex.I * ((α + γ) / 2 : ℝ)) ^ v := by
      rw [← Complex.exp_nat_mul, ← Complex.exp_nat_mul, ← Complex.exp_add]
      congr 1
      push_cast
      ring
    rw [hpe, hph]
    unfold Q
    rw [(half_conj α β γ).1, (half_conj α β γ).2, C_mul (a := _ ^ u), C_pow, C_pow,
      show ∀ a b x y : ℂ[X], a * b * (x * y) = (a * x) * (b * y) by intros; ring, ← mul_pow, ← mul_pow]
    have h1 : (half α β γ).1 = Complex.exp (Complex.I * ((α - γ) / 2 : ℝ)) * (c * w) := by
      unfold half
      dsimp only
      rw [mul_left_comm, ← Complex.exp_add]
      congr 2
      push_cast; ring
    have h2 : (s : ℂ) * Complex.exp (-(Complex.I * ((α - γ) / 2 : ℝ))) = Complex.exp (Complex.I * ((α + γ) / 2 : ℝ)) * (s * w) := by
      rw [mul_left_comm, ← Complex.exp_add]
      congr 2
      push_cast; ring
    have h3 : (half α β γ).2 = Complex.exp (Complex.I * ((α - γ) / 2 : ℝ)) * s := mul_comm _ _
    have h4 : (c : ℂ) * Complex.exp (Complex.I * ((α + γ) / 2 : ℝ)) = Complex.exp (Complex.I * ((α + γ) / 2 : ℝ)) * c := mul_comm _ _
    rw [show (Real.cos (β / 2) : ℂ) = c from rfl, show (Real.sin (β / 2) : ℂ) = s from rfl, h1, h2, h3, h4]
    simp only [C_mul]
    congr 2 <;> ring
  rw [hp, coeff_C_mul, comp_C_mul_X_coeff, coeff_map]
  have : Complex.exp (-(Complex.I * k * α)) = w ^ k := by
    rw [← Complex.exp_nat_mul]
    congr 1; ring
  rw [this]
  simp only [Complex.ofRealHom_eq_coe]
  ring

theorem wD_eq (l : ℕ) {m' m : ℤ} (h' : |m'| ≤ l) (h : |m| ≤ l) (α β γ : ℝ) :
    wD l m' m α β γ = DU l (half α β γ) m' m := by
  obtain ⟨a1, a2⟩ := abs_le.mp h'
  obtain ⟨b1, b2⟩ := abs_le.mp h
  unfold wD DU
  rw [Q_half, wignerD_eq l h' h]
  push_cast
  have e1 : (((l + m').toNat : ℕ) : ℂ) = (l : ℂ) + m' := by
    have : (((l + m').toNat : ℕ) : ℤ) = l + m' := by omega
    exact_mod_cast congrArg (Int.cast : ℤ → ℂ) this
  have e2 : (((l + m).toNat : ℕ) : ℂ) = (l : ℂ) + m := by
    have : (((l + m).toNat : ℕ) : ℤ) = l + m := by omega
    exact_mod_cast congrArg (Int.cast : ℤ → ℂ) this
  have e3 : (((l - m).toNat : ℕ) : ℂ) = (l : ℂ) - m := by
    have : (((l - m).toNat : ℕ) : ℤ) = l - m := by omega
    exact_mod_cast congrArg (Int.cast : ℤ → ℂ) this
  rw [e1, e2, e3]
  have ph : Complex.exp (-(Complex.I * (l + m') * α)) * Complex.exp (Complex.I * (((l : ℂ) + m + (l - m)) / 2 * α - ((l : ℂ) + m - (l - m)) / 2 * γ)) =
      Complex.exp (-(Complex.I * m' * α)) * Complex.exp (-(Complex.I * m * γ)) := by
    rw [← Complex.exp_add, ← Complex.exp_add]
    congr 1; ring
  linear_combination (-(gN l m' : ℂ) / gN l m * ((P (Real.cos (β / 2)) (Real.sin (β / 2)) (l + m).toNat (l - m).toNat).coeff (l + m').toNat : ℝ)) * ph

/-- Matrices multiply. -/
theorem DU_mul (l : ℕ) (U V : ℂ × ℂ) {m' m : ℤ} (h : |m| ≤ l) :
    ∑ i ∈ range (2 * l + 1), DU l V m' ((i : ℤ) - l) * DU l U ((i : ℤ) - l) m = DU l (su U V) m' m := by
  obtain ⟨b1, b2⟩ := abs_le.mp h
  obtain ⟨b, hb⟩ : ∃ b : ℕ, (b : ℤ) = l + m := ⟨(l + m).toNat, by omega⟩
  have e := congrArg (fun p => p.coeff (l + m').toNat) (Q_compose U V (2 * l) b (by omega))
  simp only [finsetSum_coeff, coeff_C_mul] at e
  have e1 : ((l : ℤ) + m).toNat = b := by omega
  have e2 : ((l : ℤ) - m).toNat = 2 * l - b := by omega
  unfold DU
  rw [e1, e2, ← e, mul_sum]
  apply sum_congr rfl
  intro i hi
  have e3 : ((l : ℤ) + ((i : ℤ) - l)).toNat = i := by omega
  have e4 : ((l : ℤ) - ((i : ℤ) - l)).toNat = 2 * l - i := by omega
  rw [e3, e4]
  have g : (gN l ((i : ℤ) - l) : ℂ) ≠ 0 := by exact_mod_cast (gN_pos _ _).ne'
  field_simp

/-- The sign of the parameters does not matter. -/
theorem DU_neg (l : ℕ) (U : ℂ × ℂ) {m' m : ℤ} (h : |m| ≤ l) : DU l (-U) m' m = DU l U m' m := by
  obtain ⟨b1, b2⟩ := abs_le.mp h
  unfold DU Q
  congr 2
  simp only [Prod.fst_neg, Prod.snd_neg, map_neg]
  rw [show (-C U.1 * X + -C U.2 : ℂ[X]) = -(C U.1 * X + C U.2) by ring,
    show (-C ((starRingEnd ℂ) U.1) - -C ((starRingEnd ℂ) U.2) * X : ℂ[X]) = -(C ((starRingEnd ℂ) U.1) - C ((starRingEnd ℂ) U.2) * X) by ring,
    neg_pow, neg_pow (C ((starRingEnd ℂ) U.1) - C ((starRingEnd ℂ) U.2) * X),
    show ∀ a b x y : ℂ[X], a * b * (x * y) = (a * x) * (b * y) by intros; ring, ← pow_add,
    show (l + m).toNat + (l - m).toNat = 2 * l by omega, pow_mul]
  simp

/-! ## three by three matrices -/

/-- The rotation matrix belonging to the parameters. -/
noncomputable def so (U : ℂ × ℂ) : M3 :=
  !![(U.1 * U.1).re - (U.2 * U.2).re, (U.1 * U.1).im - (U.2 * U.2).im, 2 * (U.1 * (starRingEnd ℂ) U.2).re;
     -(U.1 * U.1).im - (U.2 * U.2).im, (U.1 * U.1).re + (U.2 * U.2).re, -2 * (U.1 * (starRingEnd ℂ) U.2).im;
     -2 * (U.1 * U.2).re, -2 * (U.1 * U.2).im, (U.1 * (starRingEnd ℂ) U.1).re - (U.2 * (starRingEnd ℂ) U.2).re]

theorem so_su (U V : ℂ × ℂ) : so (su U V) = so V * so U := by
  obtain ⟨⟨a, b⟩, ⟨c, d⟩⟩ := U
  obtain ⟨⟨p, q⟩, ⟨r, s⟩⟩ := V
  unfold so su
  apply ext9 <;> simp [Matrix.mul_apply, Fin.sum_univ_three] <;> ring

theorem so_half (α β γ : ℝ) : so (half α β γ) = makeEuler α β γ := by
  have hx : ∀ x : ℝ, Complex.exp (-(Complex.I * (x : ℝ))) = ⟨Real.cos x, -Real.sin x⟩ := by
    intro x
    rw [show -(Complex.I * (x : ℝ)) = ((-x : ℝ) : ℂ) * Complex.I by push_cast; ring, Complex.exp_mul_I]
    apply Complex.ext <;> simp [Complex.cos_ofReal_re, Complex.sin_ofReal_re]
  have hy : ∀ x : ℝ, Complex.exp (Complex.I * (x : ℝ)) = ⟨Real.cos x, Real.sin x⟩ := by
    intro x
    rw [mul_comm, Complex.exp_mul_I]
    apply Complex.ext <;> simp [Complex.cos_ofReal_re, Complex.sin_ofReal_re]
  have h1 : (half α β γ).1 = ⟨Real.cos (β / 2) * Real.cos ((α + γ) / 2), -(Real.cos (β / 2) * Real.sin ((α + γ) / 2))⟩ := by
    unfold half; dsimp only; rw [hx]; generalize Real.cos (β / 2) = r; apply Complex.ext <;> simp
  have h2 : (half α β γ).2 = ⟨Real.sin (β / 2) * Real.cos ((α - γ) / 2), Real.sin (β / 2) * Real.sin ((α - γ) / 2)⟩ := by
    unfold half; dsimp only; rw [hy]; generalize Real.sin (β / 2) = r; apply Complex.ext <;> simp
  obtain ⟨a, ha⟩ : ∃ a, α = 2 * a := ⟨α / 2, by ring⟩
  obtain ⟨b, hb⟩ : ∃ a, β = 2 * a := ⟨β / 2, by ring⟩
  obtain ⟨c, hc⟩ : ∃ a, γ = 2 * a := ⟨γ / 2, by ring⟩
  subst ha hb hc
  rw [show (2 * a + 2 * c) / 2 = a + c by ring, show 2 * b / 2 = b by ring] at h1
  rw [show (2 * a - 2 * c) / 2 = a - c by ring, show 2 * b / 2 = b by ring] at h2
  unfold so makeEuler
  rw [h1, h2]
  simp only [Real.cos_add, Real.sin_add, Real.cos_sub, Real.sin_sub, Real.cos_two_mul', Real.sin_two_mul]
  have sa := Real.sin_sq_add_cos_sq a
  have sb := Real.sin_sq_add_cos_sq b
  have sc := Real.sin_sq_add_cos_sq c
  generalize Real.sin a = x at *
  generalize Real.cos a = y at *
  generalize Real.sin b = z at *
  generalize Real.cos b = w at *
  generalize Real.sin c = u at *
  generalize Real.cos c = v at *
  apply ext9 <;> simp <;> grind

theorem half_norm (α β γ : ℝ) :
    (half α β γ).1 * (starRingEnd ℂ) (half α β γ).1 + (half α β γ).2 * (starRingEnd ℂ) (half α β γ).2 = 1 := by
  rw [(half_conj α β γ).1, (half_conj α β γ).2]
  unfold half
  dsimp only
  have e1 : ∀ x : ℂ, Complex.exp (-x) * Complex.exp x = 1 := fun x => by rw [← Complex.exp_add]; simp
  have e : (Real.sin (β / 2) : ℂ) ^ 2 + (Real.cos (β / 2) : ℂ) ^ 2 = 1 := by
    exact_mod_cast congrArg Complex.ofReal (Real.sin_sq_add_cos_sq (β / 2))
  linear_combination (Real.cos (β / 2) : ℂ) ^ 2 * e1 (Complex.I * ((α + γ) / 2 : ℝ)) +
    (Real.sin (β / 2) : ℂ) ^ 2 * e1 (Complex.I * ((α - γ) / 2 : ℝ)) + e

/-- A rotation matrix determines the parameters up to a common sign. -/
theorem so_inj {U V : ℂ × ℂ} (h : so U = so V) : U = V ∨ U = -V := by
  have e : ∀ i j, so U i j = so V i j := fun i j => by rw [h]
  have a := e 0 0; have b := e 0 1; have c := e 1 0; have d := e 1 1; have f := e 2 0; have g := e 2 1
  simp only [so, Matrix.of_apply, Matrix.cons_val', Matrix.cons_val_zero, Matrix.cons_val_one, Matrix.cons_val] at a b c d f g
  have h1 : U.1 * U.1 = V.1 * V.1 := Complex.ext (by linarith) (by linarith)
  have h2 : U.2 * U.2 = V.2 * V.2 := Complex.ext (by linarith) (by linarith)
  have h3 : U.1 * U.2 = V.1 * V.2 := Complex.ext (by linarith) (by linarith)
  rcases mul_self_eq_mul_self_iff.mp h1 with p | p <;> rcases mul_self_eq_mul_self_iff.mp h2 with q | q
  · exact Or.inl (Prod.ext p q)
  · rw [p, q] at h3
    have : V.1 * V.2 = 0 := by linear_combination (-1 / 2 : ℂ) * h3
    rcases mul_eq_zero.mp this with z | z
    · exact Or.inr (Prod.ext (by simp [p, z]) (by simp [q]))
    · exact Or.inl (Prod.ext p (by simp [q, z]))
  · rw [p, q] at h3
    have : V.1 * V.2 = 0 := by linear_combination (-1 / 2 : ℂ) * h3
    rcases mul_eq_zero.mp this with z | z
    · exact Or.inl (Prod.ext (by simp [p, z]) q)
    · exact Or.inr (Prod.ext (by simp [p]) (by simp [q, z]))
  · exact Or.inr (Prod.ext (by simp [p]) (by simp [q]))

theorem DU_congr (l : ℕ) {U V : ℂ × ℂ} (h : so U = so V) {m' m : ℤ} (hm : |m| ≤ l) : DU l U m' m = DU l V m' m := by
  rcases so_inj h with e | e
  · rw [e]
  · rw [e, DU_neg l V hm]

/-- `D^l` is a function of the rotation matrix. -/
theorem wD_congr (l : ℕ) {m' m : ℤ} (h' : |m'| ≤ l) (h : |m| ≤ l) {α β γ α' β' γ' : ℝ}
    (hR : makeEuler α β γ = makeEuler α' β' γ') : wD l m' m α β γ = wD l m' m α' β' γ' := by
  rw [wD_eq l h' h, wD_eq l h' h]
  exact DU_congr l (by rw [so_half, so_half, hR]) h

/-- `D^l(R R') = D^l(R) D^l(R')` -/
theorem wD_mul (l : ℕ) {m' m : ℤ} (h' : |m'| ≤ l) (h : |m| ≤ l) {α β γ α' β' γ' α'' β'' γ'' : ℝ}
    (hR : makeEuler α'' β'' γ'' = makeEuler α β γ * makeEuler α' β' γ') :
    wD l m' m α'' β'' γ'' = ∑ i ∈ range (2 * l + 1), wD l m' ((i : ℤ) - l) α β γ * wD l ((i : ℤ) - l) m α' β' γ' := by
  have : ∀ i ∈ range (2 * l + 1), wD l m' ((i : ℤ) - l) α β γ * wD l ((i : ℤ) - l) m α' β' γ' =
      DU l (half α β γ) m' ((i : ℤ) - l) * DU l (half α' β' γ') ((i : ℤ) - l) m := by
    intro i hi
    have hi' := mem_range.mp hi
    have hj : |(i : ℤ) - l| ≤ l := abs_le.mpr ⟨by omega, by omega⟩
    rw [wD_eq l h' hj, wD_eq l hj h]
  rw [sum_congr rfl this, DU_mul l _ _ h, wD_eq l h' h]
  apply DU_congr l _ h
  rw [so_half, so_su, so_half, so_half, hR]

/-- Unitarity. -/
theorem wD_conj (l : ℕ) {m' m : ℤ} (h' : |m'| ≤ l) (h : |m| ≤ l) (α β γ : ℝ) :
    (starRingEnd ℂ) (wD l m' m α β γ) = wD l m m' (-γ) (-β) (-α) := by
  unfold wD
  rw [map_mul, map_mul, ← Complex.exp_conj, ← Complex.exp_conj, Complex.conj_ofReal, wignerD_neg l h h', wignerD_transpose l h' h]
  have sg : ((-1 : ℝ)) ^ (m.natAbs + m'.natAbs) * (-1) ^ (m'.natAbs + m.natAbs) = 1 := by
    rw [add_comm m.natAbs, ← pow_add, ← two_mul, pow_mul]; simp
  rw [← mul_assoc ((-1 : ℝ) ^ (m.natAbs + m'.natAbs)), sg, one_mul]
  have e1 : (starRingEnd ℂ) (-(Complex.I * (m' : ℂ) * (α : ℂ))) = -(Complex.I * (m' : ℂ) * ((-α : ℝ) : ℂ)) := by simp
  have e2 : (starRingEnd ℂ) (-(Complex.I * (m : ℂ) * (γ : ℂ))) = -(Complex.I * (m : ℂ) * ((-γ : ℝ) : ℂ)) := by simp
  rw [e1, e2]
  ring

theorem euler_inv (α β γ : ℝ) : makeEuler (-γ) (-β) (-α) = (makeEuler α β γ).transpose := by
  unfold makeEuler
  apply ext9 <;> simp <;> ring

theorem wD_one (l : ℕ) {m' m : ℤ} (h' : |m'| ≤ l) (h : |m| ≤ l) {α β γ : ℝ} (hR : makeEuler α β γ = 1) :
    wD l m' m α β γ = if m' = m then 1 else 0 := by
  rw [wD_congr l h' h (α' := 0) (β' := 0) (γ' := 0) (by rw [hR]; unfold makeEuler; apply ext9 <;> simp)]
  unfold wD
  obtain ⟨a1, a2⟩ := abs_le.mp h'
  obtain ⟨b1, b2⟩ := abs_le.mp h
  rw [wignerD_eq l h' h]
  simp only [zero_div, Real.cos_zero, Real.sin_zero, P, C_1, C_0, one_mul, add_zero, zero_mul, sub_zero, one_pow, mul_one, coeff_X_pow]
  by_cases e : m' = m
  · subst e
    have := (gN_pos l m').ne'
    simp [this]
  · rw [if_neg (by omega), if_neg e]; simp

end Verif.Num
