import Verif.Fft.Model
import Mathlib.Tactic.IntervalCases

/-! # Roots of unity and the butterflies of the special radices -/

namespace Verif.Fft
open Verif Res Finset

/-- `exp(2πi t/n)` -/
noncomputable def zeta (n : ℕ) (t : ℤ) : ℂ := Complex.exp (2 * Real.pi * Complex.I * t / n)

/-- Sign of the transform: `+1` backward, `-1` forward. -/
def sg (back : Bool) : ℤ := if back then 1 else -1

theorem zeta_add (n : ℕ) (s t : ℤ) : zeta n (s + t) = zeta n s * zeta n t := by
  unfold zeta; rw [← Complex.exp_add]; congr 1; push_cast; ring

@[simp] theorem zeta_zero (n : ℕ) : zeta n 0 = 1 := by simp [zeta]

theorem zeta_self {n : ℕ} (hn : n ≠ 0) (t : ℤ) : zeta n (n * t) = 1 := by
  unfold zeta
  rw [Complex.exp_eq_one_iff]
  refine ⟨t, ?_⟩
  have : (n : ℂ) ≠ 0 := by exact_mod_cast hn
  push_cast
  field_simp

theorem zeta_self' {n : ℕ} (hn : n ≠ 0) (t : ℤ) : zeta n (t * n) = 1 := by rw [mul_comm]; exact zeta_self hn t

theorem zeta_scale {n m k : ℕ} (h : n = m * k) (hm : m ≠ 0) (t : ℤ) : zeta n (m * t) = zeta k t := by
  subst h
  unfold zeta
  congr 1
  by_cases hk : k = 0
  · simp [hk]
  have : (m : ℂ) ≠ 0 := by exact_mod_cast hm
  have : (k : ℂ) ≠ 0 := by exact_mod_cast hk
  push_cast
  field_simp

theorem zeta_mod {n : ℕ} (hn : n ≠ 0) (s t q : ℤ) (h : s = t + n * q) : zeta n s = zeta n t := by
  rw [h, zeta_add, zeta_self hn, mul_one]

theorem zeta_eq (n : ℕ) (t : ℤ) : zeta n t = cis (2 * Real.pi * t / n) := by
  unfold zeta cis
  rw [show 2 * (Real.pi : ℂ) * Complex.I * t / n = ((2 * Real.pi * t / n : ℝ) : ℂ) * Complex.I by push_cast; ring,
    Complex.exp_mul_I, ← Complex.ofReal_cos, ← Complex.ofReal_sin]
  generalize Real.cos _ = x
  generalize Real.sin _ = y
  apply Complex.ext <;> simp

theorem zeta_conj (n : ℕ) (t : ℤ) : (starRingEnd ℂ) (zeta n t) = zeta n (-t) := by
  rw [zeta_eq, zeta_eq]
  apply Complex.ext
  · simp only [cis, Complex.conj_re]
    rw [show 2 * Real.pi * ((-t : ℤ) : ℝ) / n = -(2 * Real.pi * t / n) by push_cast; ring, Real.cos_neg]
  · simp only [cis, Complex.conj_im]
    rw [show 2 * Real.pi * ((-t : ℤ) : ℝ) / n = -(2 * Real.pi * t / n) by push_cast; ring, Real.sin_neg]

theorem conjflip_eq (z : ℂ) : conjflip z = Complex.I * z := by
  unfold conjflip; apply Complex.ext <;> simp

theorem mulpm_zeta (back : Bool) (n : ℕ) (t : ℤ) (x : ℂ) : mulpm back (zeta n t) x = zeta n (sg back * t) * x := by
  unfold mulpm sg
  cases back
  · rw [if_neg (by simp), if_neg (by simp), show (-1 : ℤ) * t = -t by ring, ← zeta_conj]
    apply Complex.ext <;> simp <;> ring
  · rw [if_pos rfl, if_pos rfl, one_mul]
    apply Complex.ext <;> simp <;> ring

theorem psign_sg (back : Bool) (x : ℝ) : psign back x = (sg back : ℝ) * x := by
  unfold psign sg; cases back <;> simp

/-- The DFT of length `v.length` of a short list, component `j`. -/
noncomputable def dftAt (back : Bool) (ip : ℕ) (v : List ℂ) (j : ℕ) : ℂ :=
  ∑ m ∈ range ip, zeta ip (sg back * (m * j)) * v.getD m 0

theorem cis_eq (a : ℝ) : cis a = (Real.cos a : ℂ) + Complex.I * (Real.sin a : ℂ) := by
  unfold cis
  apply Complex.ext <;> simp [Complex.cos_ofReal_re, Complex.sin_ofReal_re]

theorem zeta_form (p : ℕ) (back : Bool) (t : ℤ) : zeta p (sg back * t) =
    (Real.cos (2 * Real.pi * t / p) : ℂ) + (sg back : ℂ) * Complex.I * (Real.sin (2 * Real.pi * t / p) : ℂ) := by
  rw [zeta_eq, cis_eq]
  cases back
  · simp only [sg, Bool.false_eq_true, if_false]
    rw [show 2 * Real.pi * ((-1 * t : ℤ) : ℝ) / p = -(2 * Real.pi * t / p) by push_cast; ring, Real.cos_neg, Real.sin_neg]
    push_cast; ring
  · simp [sg]

theorem bf2_spec (back : Bool) (a b : ℂ) (j : ℕ) (hj : j < 2) : (bf2 a b).getD j 0 = dftAt back 2 [a, b] j := by
  have h1 : ∀ s : ℤ, zeta 2 (sg back * (2 * s)) = 1 := fun s => by
    rw [show sg back * (2 * s) = ((2 : ℕ) : ℤ) * (sg back * s) by push_cast; ring]; exact zeta_self (by norm_num) _
  have h2 : zeta 2 (sg back * 1) = -1 := by
    rw [zeta_form]; push_cast
    rw [show 2 * (Real.pi : ℂ) * 1 / 2 = Real.pi by ring]; simp
  unfold dftAt bf2
  have e0 := h1 0
  simp only [mul_zero] at e0
  interval_cases j <;> simp [sum_range_succ] at *
  rw [h2]; ring

theorem cos_third : Real.cos (2 * Real.pi / 3) = -1 / 2 := by
  rw [show 2 * Real.pi / 3 = Real.pi - Real.pi / 3 by ring, Real.cos_pi_sub, Real.cos_pi_div_three]; ring
theorem sin_third : Real.sin (2 * Real.pi / 3) = √3 / 2 := by
  rw [show 2 * Real.pi / 3 = Real.pi - Real.pi / 3 by ring, Real.sin_pi_sub, Real.sin_pi_div_three]

theorem z3 (back : Bool) : zeta 3 (sg back) = -1 / 2 + (sg back : ℂ) * Complex.I * ((√3 / 2 : ℝ) : ℂ) := by
  have := zeta_form 3 back 1
  rw [mul_one] at this
  rw [this]
  push_cast
  rw [show (2 * Real.pi * 1 / 3 : ℂ) = ((2 * Real.pi / 3 : ℝ) : ℂ) by push_cast; ring, ← Complex.ofReal_cos, ← Complex.ofReal_sin,
    cos_third, sin_third]
  push_cast; ring

theorem zeta_pow (n : ℕ) (s : ℤ) (k : ℕ) : zeta n (s * k) = zeta n s ^ k := by
  induction k with
  | zero => simp
  | succ k ih => rw [pow_succ, ← ih, ← zeta_add]; congr 1; push_cast; ring

theorem zeta_pow_self {n : ℕ} (hn : n ≠ 0) (s : ℤ) : zeta n s ^ n = 1 := by
  rw [← zeta_pow]; exact zeta_self' hn s

theorem dftAt_pow (back : Bool) (ip : ℕ) (v : List ℂ) (j : ℕ) :
    dftAt back ip v j = ∑ m ∈ range ip, zeta ip (sg back) ^ (m * j) * v.getD m 0 := by
  unfold dftAt
  apply sum_congr rfl
  intro m _
  rw [← zeta_pow]; push_cast; rfl

theorem sg_sq (back : Bool) : (sg back : ℂ) ^ 2 = 1 := by cases back <;> simp [sg]

theorem bf3_spec (back : Bool) (a b c : ℂ) (j : ℕ) (hj : j < 3) : (bf3 back a b c).getD j 0 = dftAt back 3 [a, b, c] j := by
  rw [dftAt_pow, z3]
  have h3 : ((√3 / 2 : ℝ) : ℂ) ^ 2 = 3 / 4 := by
    rw [← Complex.ofReal_pow, div_pow, Real.sq_sqrt (by norm_num)]; push_cast; norm_num
  have hs := sg_sq back
  have hI := Complex.I_sq
  unfold bf3
  simp only [conjflip_eq, psign_sg]
  rw [Complex.ofReal_mul]
  generalize ((√3 / 2 : ℝ) : ℂ) = t at *
  generalize hσ : (((sg back : ℤ) : ℝ) : ℂ) = s' at *
  have hs' : ((sg back : ℤ) : ℂ) = s' := by rw [← hσ]; push_cast; rfl
  rw [hs'] at hs ⊢
  interval_cases j <;> simp [sum_range_succ]
  · ring
  · grind
  · grind

theorem bf4_spec (back : Bool) (a b c d : ℂ) (j : ℕ) (hj : j < 4) :
    (bf4 back a b c d).getD j 0 = dftAt back 4 [a, b, c, d] j := by
  have hz : zeta 4 (sg back) = (sg back : ℂ) * Complex.I := by
    have := zeta_form 4 back 1
    rw [mul_one] at this
    rw [this]
    push_cast
    rw [show (2 * Real.pi * 1 / 4 : ℂ) = ((Real.pi / 2 : ℝ) : ℂ) by push_cast; ring, ← Complex.ofReal_cos, ← Complex.ofReal_sin,
      Real.cos_pi_div_two, Real.sin_pi_div_two]
    simp
  rw [dftAt_pow, hz]
  have hI := Complex.I_sq
  unfold bf4
  simp only [conjflip_eq]
  cases back <;> simp only [sg, Bool.false_eq_true, if_false, if_true] <;> interval_cases j <;> simp [sum_range_succ] <;> grind

theorem z5 (back : Bool) : zeta 5 (sg back) = (Real.cos (2 * Real.pi / 5) : ℂ) + (sg back : ℂ) * Complex.I * (Real.sin (2 * Real.pi / 5) : ℂ) := by
  have := zeta_form 5 back 1
  rw [mul_one] at this
  rw [this]
  push_cast
  rw [mul_one]
theorem z5' (back : Bool) : zeta 5 (sg back) ^ 2 = (Real.cos (4 * Real.pi / 5) : ℂ) + (sg back : ℂ) * Complex.I * (Real.sin (4 * Real.pi / 5) : ℂ) := by
  rw [← zeta_pow, zeta_form 5 back]
  push_cast
  rw [show (2 * Real.pi * 2 / 5 : ℂ) = 4 * Real.pi / 5 by ring]
theorem z5c (back : Bool) : zeta 5 (sg back) ^ 4 = (Real.cos (2 * Real.pi / 5) : ℂ) - (sg back : ℂ) * Complex.I * (Real.sin (2 * Real.pi / 5) : ℂ) := by
  rw [← zeta_pow, zeta_mod (n := 5) (by norm_num) (sg back * ((4 : ℕ) : ℤ)) (sg back * (-1)) (sg back) (by push_cast; ring), zeta_form 5 back]
  push_cast
  rw [show (2 * Real.pi * -1 / 5 : ℂ) = -(2 * Real.pi / 5) by ring, Complex.cos_neg, Complex.sin_neg]
  ring
theorem z5c' (back : Bool) : zeta 5 (sg back) ^ 3 = (Real.cos (4 * Real.pi / 5) : ℂ) - (sg back : ℂ) * Complex.I * (Real.sin (4 * Real.pi / 5) : ℂ) := by
  rw [← zeta_pow, zeta_mod (n := 5) (by norm_num) (sg back * ((3 : ℕ) : ℤ)) (sg back * (-2)) (sg back) (by push_cast; ring), zeta_form 5 back]
  push_cast
  rw [show (2 * Real.pi * -2 / 5 : ℂ) = -(4 * Real.pi / 5) by ring, Complex.cos_neg, Complex.sin_neg]
  ring

theorem bf5_spec (back : Bool) (a b c d e : ℂ) (j : ℕ) (hj : j < 5) :
    (bf5 back a b c d e).getD j 0 = dftAt back 5 [a, b, c, d, e] j := by
  rw [dftAt_pow]
  have h1 := z5 back
  have h2 := z5' back
  have h3 := z5c' back
  have h4 := z5c back
  have h5 := zeta_pow_self (n := 5) (by norm_num) (sg back)
  unfold bf5
  simp only [conjflip_eq, psign_sg]
  simp only [Complex.ofReal_mul]
  generalize zeta 5 (sg back) = w at *
  generalize (Real.cos (2 * Real.pi / 5) : ℂ) = C1 at *
  generalize (Real.cos (4 * Real.pi / 5) : ℂ) = C2 at *
  generalize (Real.sin (2 * Real.pi / 5) : ℂ) = S1 at *
  generalize (Real.sin (4 * Real.pi / 5) : ℂ) = S2 at *
  generalize hσ : (((sg back : ℤ) : ℝ) : ℂ) = s' at *
  have hs' : ((sg back : ℤ) : ℂ) = s' := by rw [← hσ]; push_cast; rfl
  rw [hs'] at h1 h2 h3 h4
  have p6 : w ^ 6 = w := by rw [show 6 = 5 + 1 by rfl, pow_add, h5]; ring
  have p8 : w ^ 8 = w ^ 3 := by rw [show 8 = 5 + 3 by rfl, pow_add, h5]; ring
  have p9 : w ^ 9 = w ^ 4 := by rw [show 9 = 5 + 4 by rfl, pow_add, h5]; ring
  have p12 : w ^ 12 = w ^ 2 := by rw [show 12 = 5 + 5 + 2 by rfl, pow_add, pow_add, h5]; ring
  have p16 : w ^ 16 = w := by rw [show 16 = 5 + 5 + 5 + 1 by rfl, pow_add, pow_add, pow_add, h5]; ring
  interval_cases j <;> simp [sum_range_succ]
  · ring
  · rw [h2, h3, h4, h1]; ring
  · rw [p6, p8, h2, h4, h3, h1]; ring
  · rw [p6, p9, p12, h2, h3, h4, h1]; ring
  · rw [p8, p12, p16, h2, h3, h4, h1]; ring

theorem bf6_spec (back : Bool) (a b c d e f : ℂ) (j : ℕ) (hj : j < 6) :
    (bf6 back a b c d e f).getD j 0 = dftAt back 6 [a, b, c, d, e, f] j := by
  have hz : zeta 6 (sg back) = 1 / 2 + (sg back : ℂ) * Complex.I * ((√3 / 2 : ℝ) : ℂ) := by
    have := zeta_form 6 back 1
    rw [mul_one] at this
    rw [this]
    push_cast
    rw [show (2 * Real.pi * 1 / 6 : ℂ) = ((Real.pi / 3 : ℝ) : ℂ) by push_cast; ring, ← Complex.ofReal_cos, ← Complex.ofReal_sin,
      Real.cos_pi_div_three, Real.sin_pi_div_three]
    push_cast; ring
  rw [dftAt_pow]
  have h3 : ((√3 / 2 : ℝ) : ℂ) ^ 2 = 3 / 4 := by
    rw [← Complex.ofReal_pow, div_pow, Real.sq_sqrt (by norm_num)]; push_cast; norm_num
  have hs := sg_sq back
  have hI := Complex.I_sq
  unfold bf6
  simp only [conjflip_eq, psign_sg]
  rw [Complex.ofReal_mul]
  generalize zeta 6 (sg back) = w at *
  generalize ((√3 / 2 : ℝ) : ℂ) = t at *
  generalize hσ : (((sg back : ℤ) : ℝ) : ℂ) = s' at *
  have hs' : ((sg back : ℤ) : ℂ) = s' := by rw [← hσ]; push_cast; rfl
  rw [hs'] at hs hz
  have w2 : w ^ 2 = -1 / 2 + s' * Complex.I * t := by rw [hz]; grind
  have w3 : w ^ 3 = -1 := by rw [pow_succ, w2, hz]; grind
  have wn : ∀ k, w ^ (3 + k) = -w ^ k := fun k => by rw [pow_add, w3]; ring
  have w4 : w ^ 4 = -w := by simpa using wn 1
  have w5 : w ^ 5 = -w ^ 2 := wn 2
  have w6 : w ^ 6 = 1 := by rw [wn 3, w3]; ring
  have w8 : w ^ 8 = w ^ 2 := by rw [show 8 = 6 + 2 by rfl, pow_add, w6, one_mul]
  have w9 : w ^ 9 = -1 := by rw [show 9 = 6 + 3 by rfl, pow_add, w6, one_mul, w3]
  have w10 : w ^ 10 = -w := by rw [show 10 = 6 + 4 by rfl, pow_add, w6, one_mul, w4]
  have w12 : w ^ 12 = 1 := by rw [show 12 = 6 + 6 by rfl, pow_add, w6, one_mul]
  have w15 : w ^ 15 = -1 := by rw [show 15 = 12 + 3 by rfl, pow_add, w12, one_mul, w3]
  have w16 : w ^ 16 = -w := by rw [show 16 = 12 + 4 by rfl, pow_add, w12, one_mul, w4]
  have w20 : w ^ 20 = w ^ 2 := by rw [show 20 = 12 + 8 by rfl, pow_add, w12, one_mul, w8]
  have w25 : w ^ 25 = w := by rw [show 25 = 12 + 12 + 1 by rfl, pow_add, pow_add, w12, one_mul]; ring
  interval_cases j <;> simp [sum_range_succ]
  · ring
  · rw [w3, w4, w5, w2, hz]; ring
  · rw [w4, w6, w8, w10, w2, hz]; ring
  · rw [w3, w6, w9, w12, w15]; ring
  · rw [w4, w8, w12, w16, w20, w2, hz]; ring
  · rw [w5, w10, w15, w20, w25, w2, hz]; ring

theorem bf_spec (back : Bool) (v : List ℂ) (h1 : 2 ≤ v.length) (h2 : v.length ≤ 6) :
    ∃ u, bf back v = ok u ∧ u.length = v.length ∧ ∀ j < v.length, u.getD j 0 = dftAt back v.length v j := by
  match v, h1, h2 with
  | [a, b], _, _ => exact ⟨_, rfl, rfl, fun j hj => bf2_spec back a b j hj⟩
  | [a, b, c], _, _ => exact ⟨_, rfl, rfl, fun j hj => bf3_spec back a b c j hj⟩
  | [a, b, c, d], _, _ => exact ⟨_, rfl, rfl, fun j hj => bf4_spec back a b c d j hj⟩
  | [a, b, c, d, e], _, _ => exact ⟨_, rfl, rfl, fun j hj => bf5_spec back a b c d e j hj⟩
  | [a, b, c, d, e, f], _, _ => exact ⟨_, rfl, rfl, fun j hj => bf6_spec back a b c d e f j hj⟩
  | _ :: _ :: _ :: _ :: _ :: _ :: _ :: _, _, h => simp at h; omega

end Verif.Fft
