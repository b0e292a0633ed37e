import Mathlib.Analysis.Complex.Basic
import Mathlib.Analysis.SpecialFunctions.Complex.Circle

/-!
# Propagation of relative errors

`Near κ x y Q`: the computed value `x` differs from the exact value `y`, which is at most `Q` in magnitude, by at most `(κ - 1) Q`.
-/

namespace Verif.Num
open Finset

variable {E : Type} [NormedRing E]

/-- `x` approximates `y` with error at most `(κ - 1) Q`, `‖y‖ ≤ Q`. -/
structure Near (κ : ℝ) (x y : E) (Q : ℝ) : Prop where
  one_le : 1 ≤ κ
  err : ‖x - y‖ ≤ (κ - 1) * Q
  bound : ‖y‖ ≤ Q

namespace Near

variable {κ κ' Q Q' u : ℝ} {x y x' y' : E}

theorem nonneg (h : Near κ x y Q) : 0 ≤ Q := (norm_nonneg _).trans h.bound

theorem norm_le (h : Near κ x y Q) : ‖x‖ ≤ κ * Q := by
  have : ‖x‖ ≤ ‖x - y‖ + ‖y‖ := by simpa using norm_add_le (x - y) y
  have h1 := h.err
  have h2 := h.bound
  linarith

theorem refl (h : ‖y‖ ≤ Q) : Near 1 y y Q := ⟨le_rfl, by simp, h⟩

theorem mono (h : Near κ x y Q) (hκ : κ ≤ κ') (hQ : Q ≤ Q') : Near κ' x y Q' := by
  refine ⟨h.one_le.trans hκ, h.err.trans ?_, h.bound.trans hQ⟩
  exact mul_le_mul (by linarith) hQ h.nonneg (by linarith [h.one_le])

/-- A rounding. -/
theorem round (h : Near κ x y Q) (hu : 0 ≤ u) {r : E} (hr : ‖r - x‖ ≤ u * ‖x‖) : Near (κ * (1 + u)) r y Q := by
  refine ⟨by nlinarith [h.one_le], ?_, h.bound⟩
  have h1 : ‖r - y‖ ≤ ‖r - x‖ + ‖x - y‖ := by simpa using norm_add_le (r - x) (x - y)
  have h2 := mul_le_mul_of_nonneg_left h.norm_le hu
  have h3 := h.err
  calc _ ≤ u * (κ * Q) + (κ - 1) * Q := by linarith
    _ = _ := by ring

theorem add (h : Near κ x y Q) (h' : Near κ x' y' Q') : Near κ (x + x') (y + y') (Q + Q') := by
  refine ⟨h.one_le, ?_, (norm_add_le _ _).trans (add_le_add h.bound h'.bound)⟩
  rw [show x + x' - (y + y') = (x - y) + (x' - y') by abel, mul_add]
  exact (norm_add_le _ _).trans (add_le_add h.err h'.err)

theorem neg (h : Near κ x y Q) : Near κ (-x) (-y) Q := by
  refine ⟨h.one_le, ?_, by rw [norm_neg]; exact h.bound⟩
  rw [show -x - -y = -(x - y) by abel, norm_neg]
  exact h.err

theorem sub (h : Near κ x y Q) (h' : Near κ x' y' Q') : Near κ (x - x') (y - y') (Q + Q') := by
  rw [sub_eq_add_neg, sub_eq_add_neg]; exact h.add h'.neg

theorem mul (h : Near κ x y Q) (h' : Near κ' x' y' Q') : Near (κ * κ') (x * x') (y * y') (Q * Q') := by
  have a := h.one_le
  have b := h'.one_le
  have hQ := h.nonneg
  have hQ' := h'.nonneg
  refine ⟨by nlinarith, ?_, (norm_mul_le _ _).trans (mul_le_mul h.bound h'.bound (norm_nonneg _) hQ)⟩
  rw [show x * x' - y * y' = x * (x' - y') + (x - y) * y' by noncomm_ring]
  have e1 : ‖x * (x' - y')‖ ≤ κ * Q * ((κ' - 1) * Q') :=
    (norm_mul_le _ _).trans (mul_le_mul h.norm_le h'.err (norm_nonneg _) (by positivity))
  have e2 : ‖(x - y) * y'‖ ≤ (κ - 1) * Q * Q' :=
    (norm_mul_le _ _).trans (mul_le_mul h.err h'.bound (norm_nonneg _) (mul_nonneg (by linarith) hQ))
  calc _ ≤ κ * Q * ((κ' - 1) * Q') + (κ - 1) * Q * Q' := (norm_add_le _ _).trans (add_le_add e1 e2)
    _ = _ := by ring

theorem sum {ι : Type} {s : Finset ι} {x y : ι → E} {Q : ι → ℝ} (hκ : 1 ≤ κ) (h : ∀ i ∈ s, Near κ (x i) (y i) (Q i)) :
    Near κ (∑ i ∈ s, x i) (∑ i ∈ s, y i) (∑ i ∈ s, Q i) := by
  refine ⟨hκ, ?_, (norm_sum_le _ _).trans (sum_le_sum fun i hi => (h i hi).bound)⟩
  rw [← sum_sub_distrib, mul_sum]
  exact (norm_sum_le _ _).trans (sum_le_sum fun i hi => (h i hi).err)

end Near

/-- Components of a complex number. -/
theorem Near.pair {κ Q : ℝ} {a b : ℝ} {z : ℂ} (h1 : |a - z.re| ≤ (κ - 1) * Q) (h2 : |b - z.im| ≤ (κ - 1) * Q) (hκ : 1 ≤ κ)
    (hz : ‖z‖ ≤ Q) : Near (2 * κ - 1) (⟨a, b⟩ : ℂ) z Q := by
  refine ⟨by linarith, ?_, hz⟩
  refine (Complex.norm_le_abs_re_add_abs_im _).trans ?_
  rw [Complex.sub_re, Complex.sub_im]
  dsimp only
  linarith

theorem norm_le_of_parts {z w : ℂ} {u : ℝ} (hu : 0 ≤ u) (h1 : |z.re| ≤ u * |w.re|) (h2 : |z.im| ≤ u * |w.im|) : ‖z‖ ≤ u * ‖w‖ := by
  rw [← Complex.re_add_im w]
  apply abs_le_of_sq_le_sq' _ (by positivity) |>.2
  rw [mul_pow, ← Complex.normSq_eq_norm_sq, ← Complex.normSq_eq_norm_sq, Complex.normSq_apply, Complex.normSq_apply]
  simp only [Complex.re_add_im]
  have a := mul_self_le_mul_self (abs_nonneg _) h1
  have b := mul_self_le_mul_self (abs_nonneg _) h2
  rw [abs_mul_abs_self] at a b
  have a' : u * |w.re| * (u * |w.re|) = u ^ 2 * (w.re * w.re) := by rw [← abs_mul_abs_self w.re]; ring
  have b' : u * |w.im| * (u * |w.im|) = u ^ 2 * (w.im * w.im) := by rw [← abs_mul_abs_self w.im]; ring
  linarith

theorem cs_le (z w : ℂ) : |z.re * w.re| + |z.im * w.im| ≤ ‖z‖ * ‖w‖ := by
  apply abs_le_of_sq_le_sq' _ (by positivity) |>.2
  rw [mul_pow, ← Complex.normSq_eq_norm_sq, ← Complex.normSq_eq_norm_sq, Complex.normSq_apply, Complex.normSq_apply, abs_mul, abs_mul]
  rw [← abs_mul_abs_self z.re, ← abs_mul_abs_self z.im, ← abs_mul_abs_self w.re, ← abs_mul_abs_self w.im]
  nlinarith [sq_nonneg (|z.re| * |w.im| - |z.im| * |w.re|)]

theorem cs_le' (z w : ℂ) : |z.im * w.re| + |z.re * w.im| ≤ ‖z‖ * ‖w‖ := by
  apply abs_le_of_sq_le_sq' _ (by positivity) |>.2
  rw [mul_pow, ← Complex.normSq_eq_norm_sq, ← Complex.normSq_eq_norm_sq, Complex.normSq_apply, Complex.normSq_apply, abs_mul, abs_mul]
  rw [← abs_mul_abs_self z.re, ← abs_mul_abs_self z.im, ← abs_mul_abs_self w.re, ← abs_mul_abs_self w.im]
  nlinarith [sq_nonneg (|z.re| * |w.re| - |z.im| * |w.im|)]

end Verif.Num
