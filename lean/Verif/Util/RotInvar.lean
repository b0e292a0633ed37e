import Verif.Util.RotAlmMain

/-!
# Rotations preserve power spectra and can be undone (C47, C50)
-/

namespace Verif.Risbo

open Verif Res Verif.Num Verif.Harm Verif.PowSpec Verif.Share Verif.Fft Polynomial

/-- Columns of `d` are orthonormal. -/
theorem wignerD_orth (l : ℕ) {m n : ℤ} (h : |m| ≤ l) (hn : |n| ≤ l) (θ : ℝ) :
    ∑ a ∈ Finset.range (2 * l + 1), wignerD l ((a : ℤ) - l) m θ * wignerD l ((a : ℤ) - l) n θ = if m = n then 1 else 0 := by
  obtain ⟨b1, b2⟩ := abs_le.mp h
  obtain ⟨n1, n2⟩ := abs_le.mp hn
  set c := Real.cos (θ / 2) with hc
  set s := Real.sin (θ / 2) with hs
  have hcs : c ^ 2 + s ^ 2 = 1 := by rw [add_comm]; exact Real.sin_sq_add_cos_sq _
  obtain ⟨b, hb⟩ : ∃ b : ℕ, (b : ℤ) = l + m := ⟨(l + m).toNat, by omega⟩
  obtain ⟨k, hk⟩ : ∃ b : ℕ, (b : ℤ) = l + n := ⟨(l + n).toNat, by omega⟩
  have e := congrArg (fun p => p.coeff k) (P_compose hcs (2 * l) b (by omega))
  simp only [finset_sum_coeff, coeff_C_mul, coeff_X_pow] at e
  have hg1 := (gN_pos l m).ne'
  have hg3 := (gN_pos l n).ne'
  have key : ∀ a ∈ Finset.range (2 * l + 1), wignerD l ((a : ℤ) - l) m θ * wignerD l ((a : ℤ) - l) n θ =
      gN l n / gN l m * ((P c s b (2 * l - b)).coeff a * (P c (-s) a (2 * l - a)).coeff k) := by
    intro a ha
    simp only [Finset.mem_range] at ha
    have ha' : |(a : ℤ) - l| ≤ l := abs_le.mpr ⟨by omega, by omega⟩
    have h1 := wignerD_eq l ha' h θ
    have h2 := wignerD_eq l hn ha' (-θ)
    have e1 : ((l : ℤ) + m).toNat = b := by omega
    have e1' : ((l : ℤ) + n).toNat = k := by omega
    have e2 : ((l : ℤ) - m).toNat = 2 * l - b := by omega
    have e3 : ((l : ℤ) + ((a : ℤ) - l)).toNat = a := by omega
    have e4 : ((l : ℤ) - ((a : ℤ) - l)).toNat = 2 * l - a := by omega
    rw [e1, e2, e3, ← hc, ← hs] at h1
    rw [e1', e3, e4, neg_div, Real.cos_neg, Real.sin_neg, ← hc, ← hs] at h2
    rw [wignerD_neg l hn ha', wignerD_transpose l ha' hn] at h2
    have sg : ((-1 : ℝ)) ^ (n.natAbs + ((a : ℤ) - l).natAbs) * (-1) ^ (((a : ℤ) - l).natAbs + n.natAbs) = 1 := by
      rw [add_comm n.natAbs, ← pow_add, ← two_mul, pow_mul]; simp
    rw [← mul_assoc, sg, one_mul] at h2
    have hg2 := (gN_pos l ((a : ℤ) - l)).ne'
    rw [h1, h2]
    field_simp
  rw [Finset.sum_congr rfl key, ← Finset.mul_sum, e]
  by_cases hmn : m = n
  · subst hmn
    rw [if_pos (by omega), if_pos rfl, mul_one, div_self hg1]
  · rw [if_neg (by omega), if_neg hmn, mul_zero]

/-- An expansion of a real field: `a_{l0}` is real. -/
def RealField (a : ℤ → ℤ → ℂ) (lmax : ℤ) : Prop := ∀ l : ℕ, (l : ℤ) ≤ lmax → (a l 0).im = 0

theorem full_neg {a : ℤ → ℤ → ℂ} {l : ℕ} (h : (a l 0).im = 0) (m : ℤ) :
    full a l (-m) = (-1) ^ m.natAbs * (starRingEnd ℂ) (full a l m) := by
  unfold full
  rcases lt_trichotomy m 0 with hm | hm | hm
  · rw [if_pos (by omega), if_neg (by omega)]
    simp only [map_mul, Complex.conj_conj, map_pow, map_neg, map_one]
    rw [← mul_assoc, ← pow_add, ← two_mul, pow_mul]; simp
  · subst hm
    simp only [neg_zero, le_refl, if_true, Int.natAbs_zero, pow_zero, one_mul]
    exact (Complex.conj_eq_iff_im.mpr h).symm
  · rw [if_neg (by omega), if_pos (by omega), neg_neg, Int.natAbs_neg]

theorem rotated_neg {a : ℤ → ℤ → ℂ} {l : ℕ} (h : (a l 0).im = 0) (psi theta phi : ℝ) {m : ℤ} (hm : |m| ≤ l) :
    rotated a psi theta phi l (-m) = (-1) ^ m.natAbs * (starRingEnd ℂ) (rotated a psi theta phi l m) := by
  unfold rotated
  rw [map_mul, map_sum, ← Complex.exp_conj, ← Finset.sum_range_reflect]
  have e1 : (starRingEnd ℂ) (-(Complex.I * (m : ℂ) * (phi : ℂ))) = -(Complex.I * ((-m : ℤ) : ℂ) * (phi : ℂ)) := by
    simp
  rw [e1, mul_left_comm]
  congr 1
  rw [Finset.mul_sum]
  apply Finset.sum_congr rfl
  intro i hi
  have hi' := Finset.mem_range.mp hi
  have ej : ((2 * l + 1 - 1 - i : ℕ) : ℤ) - l = -((i : ℤ) - l) := by omega
  rw [ej]
  set j : ℤ := (i : ℤ) - l with hj
  have hjl : |j| ≤ l := abs_le.mpr ⟨by omega, by omega⟩
  rw [wignerD_neg_neg l hm hjl, full_neg h]
  simp only [map_mul, ← Complex.exp_conj, Complex.conj_ofReal]
  have e2 : (starRingEnd ℂ) (-(Complex.I * (j : ℂ) * (psi : ℂ))) = -(Complex.I * ((-j : ℤ) : ℂ) * (psi : ℂ)) := by
    simp
  rw [e2]
  push_cast
  rw [pow_add]
  have sg : ((-1 : ℂ)) ^ j.natAbs * (-1) ^ j.natAbs = 1 := by rw [← pow_add, ← two_mul, pow_mul]; simp
  linear_combination ((-1 : ℂ) ^ m.natAbs * (wignerD l m j theta : ℂ) * Complex.exp (-(Complex.I * -(j : ℂ) * (psi : ℂ))) *
    (starRingEnd ℂ) (full a l j)) * sg

/-- The full set of rotated coefficients. -/
theorem full_rotated {a b : ℤ → ℤ → ℂ} {l : ℕ} (h : (a l 0).im = 0) (psi theta phi : ℝ)
    (hb : ∀ m : ℕ, m ≤ l → b l m = rotated a psi theta phi l m) {m : ℤ} (hm : |m| ≤ l) :
    full b l m = rotated a psi theta phi l m := by
  obtain ⟨h1, h2⟩ := abs_le.mp hm
  unfold full
  split
  · have := hb m.toNat (by omega)
    rwa [Int.toNat_of_nonneg (by omega)] at this
  · have := hb (-m).toNat (by omega)
    rw [Int.toNat_of_nonneg (by omega)] at this
    rw [this]
    have r := rotated_neg h psi theta phi (m := -m) (by rwa [abs_neg])
    rw [neg_neg, Int.natAbs_neg] at r
    exact r.symm

/-- The cross spectrum as a sum over all `m`. -/
theorem cross_full {a b : ℤ → ℤ → ℂ} {l : ℕ} (ha : (a l 0).im = 0) (hb : (b l 0).im = 0) {M : ℤ} (hM : (l : ℤ) ≤ M) :
    cross a b M l = (∑ i ∈ Finset.range (2 * l + 1), full a l ((i : ℤ) - l) * (starRingEnd ℂ) (full b l ((i : ℤ) - l))).re /
      (2 * l + 1) := by
  unfold cross
  rw [sum_symm l (fun m => full a l m * (starRingEnd ℂ) (full b l m)), min_eq_left hM, Int.toNat_natCast, Complex.add_re,
    Complex.re_sum, Finset.mul_sum]
  congr 2
  · unfold full
    simp [ha, hb]
  · apply Finset.sum_congr rfl
    intro k _
    rw [full_neg ha, full_neg hb, Complex.add_re]
    simp only [map_mul, Complex.conj_conj, map_pow, map_neg, map_one]
    have sg : ((-1 : ℂ)) ^ ((k : ℤ) + 1).natAbs * (-1) ^ ((k : ℤ) + 1).natAbs = 1 := by
      rw [← pow_add, ← two_mul, pow_mul]; simp
    rw [mul_mul_mul_comm, sg, one_mul]
    have f : ∀ c : ℤ → ℤ → ℂ, full c l ((k : ℤ) + 1) = c l ((k : ℤ) + 1) := fun c => if_pos (by omega)
    rw [f, f]
    simp only [Complex.mul_re, Complex.conj_re, Complex.conj_im]
    ring

/-- Unitarity of the rotation. -/
theorem rotated_inner (a b : ℤ → ℤ → ℂ) (psi theta phi : ℝ) (l : ℕ) :
    ∑ i ∈ Finset.range (2 * l + 1), rotated a psi theta phi l ((i : ℤ) - l) * (starRingEnd ℂ) (rotated b psi theta phi l ((i : ℤ) - l)) =
    ∑ i ∈ Finset.range (2 * l + 1), full a l ((i : ℤ) - l) * (starRingEnd ℂ) (full b l ((i : ℤ) - l)) := by
  have unit : ∀ (x : ℝ) (m : ℤ), Complex.exp (-(Complex.I * m * x)) * (starRingEnd ℂ) (Complex.exp (-(Complex.I * m * x))) = 1 := by
    intro x m
    rw [← Complex.exp_conj, ← Complex.exp_add]
    simp
  have step : ∀ i ∈ Finset.range (2 * l + 1),
      rotated a psi theta phi l ((i : ℤ) - l) * (starRingEnd ℂ) (rotated b psi theta phi l ((i : ℤ) - l)) =
      ∑ j ∈ Finset.range (2 * l + 1), ∑ k ∈ Finset.range (2 * l + 1),
        ((wignerD l ((i : ℤ) - l) ((j : ℤ) - l) theta * wignerD l ((i : ℤ) - l) ((k : ℤ) - l) theta : ℝ) : ℂ) *
        (Complex.exp (-(Complex.I * ((j : ℤ) - l : ℤ) * psi)) * full a l ((j : ℤ) - l) *
          (starRingEnd ℂ) (Complex.exp (-(Complex.I * ((k : ℤ) - l : ℤ) * psi)) * full b l ((k : ℤ) - l))) := by
    intro i _
    unfold rotated
    rw [map_mul, mul_mul_mul_comm, unit, one_mul, map_sum, Finset.sum_mul_sum]
    apply Finset.sum_congr rfl
    intro j _
    apply Finset.sum_congr rfl
    intro k _
    simp only [map_mul, Complex.conj_ofReal]
    push_cast
    ring
  rw [Finset.sum_congr rfl step, Finset.sum_comm]
  apply Finset.sum_congr rfl
  intro j hj
  have hj' := Finset.mem_range.mp hj
  rw [Finset.sum_comm]
  have inner : ∀ k ∈ Finset.range (2 * l + 1), ∑ i ∈ Finset.range (2 * l + 1),
      ((wignerD l ((i : ℤ) - l) ((j : ℤ) - l) theta * wignerD l ((i : ℤ) - l) ((k : ℤ) - l) theta : ℝ) : ℂ) *
        (Complex.exp (-(Complex.I * ((j : ℤ) - l : ℤ) * psi)) * full a l ((j : ℤ) - l) *
          (starRingEnd ℂ) (Complex.exp (-(Complex.I * ((k : ℤ) - l : ℤ) * psi)) * full b l ((k : ℤ) - l))) =
      if k = j then full a l ((j : ℤ) - l) * (starRingEnd ℂ) (full b l ((j : ℤ) - l)) else 0 := by
    intro k hk
    have hk' := Finset.mem_range.mp hk
    rw [← Finset.sum_mul, ← Complex.ofReal_sum, wignerD_orth l (abs_le.mpr ⟨by omega, by omega⟩) (abs_le.mpr ⟨by omega, by omega⟩)]
    by_cases e : k = j
    · subst e
      rw [if_pos rfl, if_pos rfl, Complex.ofReal_one, one_mul, map_mul, mul_mul_mul_comm, unit, one_mul]
    · rw [if_neg (by omega), if_neg e]; simp
  rw [Finset.sum_congr rfl inner, Finset.sum_ite_eq' (Finset.range (2 * l + 1)) j, if_pos hj]

/-- Undoing a rotation. -/
theorem rotated_inverse {a b : ℤ → ℤ → ℂ} {l : ℕ} (h : (a l 0).im = 0) (psi theta phi : ℝ)
    (hb : ∀ m : ℕ, m ≤ l → b l m = rotated a psi theta phi l m) {m : ℕ} (hm : m ≤ l) :
    rotated b (-phi) (-theta) (-psi) l m = a l m := by
  have hml : |(m : ℤ)| ≤ l := abs_le.mpr ⟨by omega, by omega⟩
  unfold rotated
  have step : ∀ i ∈ Finset.range (2 * l + 1), (wignerD l m ((i : ℤ) - l) (-theta) : ℂ) *
      Complex.exp (-(Complex.I * ((i : ℤ) - l : ℤ) * ((-phi : ℝ) : ℂ))) * full b l ((i : ℤ) - l) =
      ∑ k ∈ Finset.range (2 * l + 1), ((wignerD l ((i : ℤ) - l) m theta * wignerD l ((i : ℤ) - l) ((k : ℤ) - l) theta : ℝ) : ℂ) *
        (Complex.exp (-(Complex.I * ((k : ℤ) - l : ℤ) * psi)) * full a l ((k : ℤ) - l)) := by
    intro i hi
    have hi' := Finset.mem_range.mp hi
    have hil : |(i : ℤ) - l| ≤ l := abs_le.mpr ⟨by omega, by omega⟩
    rw [full_rotated h psi theta phi hb hil]
    unfold rotated
    have d : wignerD l m ((i : ℤ) - l) (-theta) = wignerD l ((i : ℤ) - l) m theta := by
      rw [wignerD_neg l hml hil, wignerD_transpose l (m' := (i : ℤ) - l) (m := m) hil hml, ← mul_assoc, ← pow_add,
        add_comm (m : ℤ).natAbs, ← two_mul, pow_mul]
      simp
    have e : Complex.exp (-(Complex.I * ((i : ℤ) - l : ℤ) * ((-phi : ℝ) : ℂ))) *
        Complex.exp (-(Complex.I * ((i : ℤ) - l : ℤ) * phi)) = 1 := by
      rw [← Complex.exp_add]
      simp
    rw [d, mul_assoc, ← mul_assoc (Complex.exp _), e, one_mul, Finset.mul_sum]
    apply Finset.sum_congr rfl
    intro k _
    push_cast
    ring
  rw [Finset.sum_congr rfl step, Finset.sum_comm]
  have inner : ∀ k ∈ Finset.range (2 * l + 1), ∑ i ∈ Finset.range (2 * l + 1),
      ((wignerD l ((i : ℤ) - l) m theta * wignerD l ((i : ℤ) - l) ((k : ℤ) - l) theta : ℝ) : ℂ) *
        (Complex.exp (-(Complex.I * ((k : ℤ) - l : ℤ) * psi)) * full a l ((k : ℤ) - l)) =
      if k = l + m then Complex.exp (-(Complex.I * m * psi)) * full a l m else 0 := by
    intro k hk
    have hk' := Finset.mem_range.mp hk
    rw [← Finset.sum_mul, ← Complex.ofReal_sum, wignerD_orth l hml (abs_le.mpr ⟨by omega, by omega⟩)]
    by_cases e : k = l + m
    · subst e
      rw [show (((l + m : ℕ) : ℤ) - l) = m by push_cast; ring, if_pos rfl, if_pos rfl, Complex.ofReal_one, one_mul]
      push_cast
      rfl
    · rw [if_neg (by omega), if_neg e]; simp
  rw [Finset.sum_congr rfl inner, Finset.sum_ite_eq' (Finset.range (2 * l + 1)), if_pos (Finset.mem_range.mpr (by omega)),
    ← mul_assoc, ← Complex.exp_add]
  have : full a l m = a l m := if_pos (by omega)
  rw [this]
  simp

/-! ## The theorems -/

/-- All possible executions of the parallel loops of one `rotate_alm` call. -/
structure Exec where
  junk : ℕ → ℕ → ℝ
  junk' : ℕ → ℕ → ℝ
  sR : ℕ → List (ℕ × ℕ)
  sT : ℕ → List (ℕ × Ev)
  nthr : ℕ → ℕ
  hR : ∀ j, (sR j).Perm (cells ((j + 1) / 2) j)
  hT : ∀ l, 0 < nthr l ∧ Interleaves (nthr l) l (sT l)

/-- A call of `rotate_alm`. -/
noncomputable def Exec.rotate (x : Exec) (alm : Alm ℂ) (psi theta phi : ℝ) : Res (Alm ℂ) :=
  rotateAlm x.junk x.junk' x.sR x.sT alm psi theta phi

theorem Exec.rotate_ok (x : Exec) {alm : Alm ℂ} (hwf : alm.WF) (h : alm.lmax = alm.mmax) (psi theta phi : ℝ) :
    ∃ b, x.rotate alm psi theta phi = ok b ∧ b.WF ∧ b.lmax = alm.lmax ∧ b.mmax = alm.mmax ∧
      ∀ l m : ℕ, m ≤ l → (l : ℤ) ≤ alm.lmax → coef b l m = rotated (coef alm) psi theta phi l m := by
  obtain ⟨b, hb, bwf, bl, bm, hv⟩ := (C47_rotate x.junk x.junk' x.sR x.sT x.nthr alm psi theta phi hwf x.hR x.hT).2 h
  refine ⟨b, hb, bwf, bl, bm, ?_⟩
  intro l m hml hl
  have := hv l m hml hl
  rw [get_coef bwf ⟨by omega, by omega, by omega, by omega⟩] at this
  exact Res.ok.inj this

/-- C47: two executions of the same rotation, with any numbers of threads and any interleavings, give the same coefficients. -/
theorem C47_rotate_schedule (x y : Exec) (alm : Alm ℂ) (hwf : alm.WF) (h : alm.lmax = alm.mmax) (psi theta phi : ℝ) :
    ∃ b c, x.rotate alm psi theta phi = ok b ∧ y.rotate alm psi theta phi = ok c ∧
      ∀ l m : ℕ, m ≤ l → (l : ℤ) ≤ alm.lmax → b.get l m = c.get l m := by
  obtain ⟨b, hb, -, -, -, hv⟩ := (C47_rotate x.junk x.junk' x.sR x.sT x.nthr alm psi theta phi hwf x.hR x.hT).2 h
  obtain ⟨c, hc, -, -, -, hw⟩ := (C47_rotate y.junk y.junk' y.sR y.sT y.nthr alm psi theta phi hwf y.hR y.hT).2 h
  exact ⟨b, c, hb, hc, fun l m hml hl => by rw [hv l m hml hl, hw l m hml hl]⟩

/-- C47: for a real field the rotation by `(-φ, -θ, -ψ)` undoes the rotation by `(ψ, θ, φ)`. -/
theorem C47_rotate_inverse (x y : Exec) (alm : Alm ℂ) (hwf : alm.WF) (h : alm.lmax = alm.mmax) (psi theta phi : ℝ)
    (hreal : RealField (coef alm) alm.lmax) :
    ∃ b c, x.rotate alm psi theta phi = ok b ∧ y.rotate b (-phi) (-theta) (-psi) = ok c ∧
      ∀ l m : ℕ, m ≤ l → (l : ℤ) ≤ alm.lmax → c.get l m = alm.get l m := by
  obtain ⟨b, hb, bwf, bl, bm, hv⟩ := x.rotate_ok hwf h psi theta phi
  obtain ⟨c, hc, cwf, cl, cm, hw⟩ := y.rotate_ok bwf (by omega) (-phi) (-theta) (-psi)
  refine ⟨b, c, hb, hc, ?_⟩
  intro l m hml hl
  rw [get_coef cwf ⟨by omega, by omega, by omega, by omega⟩, get_coef hwf ⟨by omega, by omega, by omega, by omega⟩,
    hw l m hml (by omega), rotated_inverse (hreal l hl) psi theta phi (fun m hm => hv l m hm hl) hml]

/-- C47: a real field stays real. -/
theorem C47_rotate_real (x : Exec) (alm : Alm ℂ) (hwf : alm.WF) (h : alm.lmax = alm.mmax) (psi theta phi : ℝ)
    (hreal : RealField (coef alm) alm.lmax) :
    ∃ b, x.rotate alm psi theta phi = ok b ∧ RealField (coef b) b.lmax := by
  obtain ⟨b, hb, bwf, bl, bm, hv⟩ := x.rotate_ok hwf h psi theta phi
  refine ⟨b, hb, ?_⟩
  intro l hl
  have := hv l 0 (by omega) (by omega)
  rw [Nat.cast_zero] at this
  have r := rotated_neg (hreal l (by omega)) psi theta phi (m := 0) (abs_le.mpr ⟨by omega, by omega⟩)
  simp only [neg_zero, Int.natAbs_zero, pow_zero, one_mul] at r
  rw [this]
  exact Complex.conj_eq_iff_im.mp r.symm

/-- C50: any rotation applied to two real fields leaves all their auto and cross spectra unchanged. -/
theorem C50_rotation (x y : Exec) (a b : Alm ℂ) (ha : a.WF) (hb : b.WF) (hlm : a.lmax = a.mmax) (hc : conformable a b)
    (psi theta phi : ℝ) (hra : RealField (coef a) a.lmax) (hrb : RealField (coef b) b.lmax) :
    ∃ a' b', x.rotate a psi theta phi = ok a' ∧ y.rotate b psi theta phi = ok b' ∧
      extractCross a' b' = extractCross a b ∧ extractCross a' a' = extractCross a a := by
  obtain ⟨a', ha', awf, al, am, hv⟩ := x.rotate_ok ha hlm psi theta phi
  have hlm' : b.lmax = b.mmax := by rw [← hc.1, ← hc.2]; exact hlm
  obtain ⟨b', hb', bwf, bl, bm, hw⟩ := y.rotate_ok hb hlm' psi theta phi
  have hra' : RealField (coef a') a'.lmax := by
    obtain ⟨c, hc, hr⟩ := C47_rotate_real x a ha hlm psi theta phi hra
    rw [ha'] at hc
    cases hc
    exact hr
  have hrb' : RealField (coef b') b'.lmax := by
    obtain ⟨c, hc, hr⟩ := C47_rotate_real y b hb hlm' psi theta phi hrb
    rw [hb'] at hc
    cases hc
    exact hr
  have hc1 := hc.1
  have hc2 := hc.2
  have gen : ∀ c c' : Alm ℂ, c.WF → c'.WF → c.lmax = a.lmax → c.mmax = a.mmax → c'.lmax = c.lmax → c'.mmax = c.mmax →
      RealField (coef c) c.lmax → RealField (coef c') c'.lmax →
      (∀ l m : ℕ, m ≤ l → (l : ℤ) ≤ c.lmax → coef c' l m = rotated (coef c) psi theta phi l m) →
      extractCross a' c' = extractCross a c := by
    intro c c' cwf cwf' cl cm cl' cm' hr hr' hv'
    unfold extractCross
    have cf : conformable a' c' := ⟨by omega, by omega⟩
    have cf2 : conformable a c := ⟨by omega, by omega⟩
    rw [if_pos cf, if_pos cf2, crossAll_eq awf cwf' cf, crossAll_eq ha cwf cf2, al, am]
    congr 1
    apply List.map_congr_left
    intro l hl
    have hl' := List.mem_range.mp hl
    rw [cross_full (hra' l (by omega)) (hr' l (by omega)) (by omega), cross_full (hra l (by omega)) (hr l (by omega)) (by omega)]
    congr 2
    rw [← rotated_inner (coef a) (coef c) psi theta phi l]
    apply Finset.sum_congr rfl
    intro i hi
    have hi' := Finset.mem_range.mp hi
    have hil : |(i : ℤ) - l| ≤ l := abs_le.mpr ⟨by omega, by omega⟩
    rw [full_rotated (hra l (by omega)) psi theta phi (fun m hm => hv l m hm (by omega)) hil,
      full_rotated (hr l (by omega)) psi theta phi (fun m hm => hv' l m hm (by omega)) hil]
  refine ⟨a', b', ha', hb', ?_, ?_⟩
  · exact gen b b' hb bwf hc1.symm hc2.symm bl bm hrb hrb' hw
  · exact gen a a' ha awf rfl rfl al am hra hra' hv

/-! ## Non-vacuity -/

/-- Executions exist: one thread in every region, assignments in program order. -/
noncomputable def serialExec : Exec where
  junk := fun _ _ => 0
  junk' := fun _ _ => 0
  sR := fun j => cells ((j + 1) / 2) j
  sT := fun l => (threadEvents l 0 ((l : ℤ) + 1)).map (fun e => (0, e))
  nthr := fun _ => 1
  hR := fun _ => List.Perm.refl _
  hT := by
    intro l
    refine ⟨by omega, ?_, ?_⟩
    · intro e he
      obtain ⟨x, -, rfl⟩ := List.mem_map.mp he
      simp
    · intro t ht
      have : t = 0 := by omega
      subst this
      refine ⟨0, (l : ℤ) + 1, ?_, ?_⟩
      · unfold calcShareGeneral; simp
      · rw [List.filter_eq_self.mpr]
        · rw [List.map_map]; simp [Function.comp_def]
        · intro e he
          obtain ⟨x, -, rfl⟩ := List.mem_map.mp he
          simp

/-- Two threads at degree 2, interleaved: thread 0 has `m = 0, 1`, thread 1 has `m = 2`. -/
example : Interleaves 2 2 [(1, ⟨1, 2, true, true⟩), (0, ⟨1, 0, true, true⟩), (0, ⟨1, 1, true, false⟩), (0, ⟨2, 0, false, false⟩),
    (1, ⟨2, 2, false, false⟩), (0, ⟨2, 1, false, true⟩)] := by
  refine ⟨by decide, ?_⟩
  intro t ht
  have : t = 0 ∨ t = 1 := by omega
  rcases this with rfl | rfl
  · exact ⟨0, 2, by decide, by decide⟩
  · exact ⟨2, 3, by decide, by decide⟩

/-- The theorems apply to a non-trivial expansion: `lmax = mmax = 1`. -/
example (psi theta phi : ℝ) : ∃ b c, serialExec.rotate ⟨1, 1, [1, 2, Complex.I]⟩ psi theta phi = ok b ∧
    serialExec.rotate b (-phi) (-theta) (-psi) = ok c ∧
      ∀ l m : ℕ, m ≤ l → (l : ℤ) ≤ 1 → c.get l m = (⟨1, 1, [1, 2, Complex.I]⟩ : Alm ℂ).get l m := by
  refine C47_rotate_inverse serialExec serialExec ⟨1, 1, [1, 2, Complex.I]⟩ ⟨by decide, by decide, by decide⟩ rfl psi theta phi ?_
  intro l hl
  have : l = 0 ∨ l = 1 := by simp only at hl; omega
  rcases this with rfl | rfl <;> simp [coef, Alm.get, index, indexL0, rd]

end Verif.Risbo
