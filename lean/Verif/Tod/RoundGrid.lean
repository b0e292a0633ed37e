import Verif.Tod.RoundVal

/-!
# C58: rounding errors of the grid positions
-/

namespace Verif.Tod
open Verif Res Finset FP

variable {rnd : ℝ → ℝ} {u : ℝ} {N0 : ℕ}

namespace Near

variable {a b x y A B X Y : ℝ}

theorem inv {q : ℝ} (h : Near a x (|x| * q) |x|) (hx : x ≠ 0) (hq : q < 2) : Near (1 / a) (1 / x) (|1 / x| * (1 / (2 - q))) |1 / x| := by
  have hxp : 0 < |x| := abs_pos.mpr hx
  have h2 := h.2
  have hq1 : 1 ≤ q := by
    have h3 := h.le
    by_contra hlt
    have : |x| * q < |x| * 1 := mul_lt_mul_of_pos_left (not_le.mp hlt) hxp
    linarith
  have ha : |x| * (2 - q) ≤ |a| := by
    have := abs_sub_abs_le_abs_sub x a
    rw [abs_sub_comm] at this
    nlinarith
  have hap : 0 < |a| := lt_of_lt_of_le (mul_pos hxp (by linarith)) ha
  have ha0 : a ≠ 0 := abs_pos.mp hap
  refine ⟨le_rfl, ?_⟩
  rw [div_sub_div _ _ ha0 hx, abs_div, abs_mul, one_mul, mul_one, abs_sub_comm, abs_div, abs_one]
  rw [show 1 / |x| * (1 / (2 - q)) - 1 / |x| = (q - 1) / ((2 - q) * |x|) by
    have : 2 - q ≠ 0 := by linarith
    field_simp; ring]
  rw [div_le_div_iff₀ (by positivity) (mul_pos (by linarith) hxp)]
  have : |a - x| * ((2 - q) * |x|) ≤ (|x| * q - |x|) * ((2 - q) * |x|) := mul_le_mul_of_nonneg_right h2 (by nlinarith)
  have h5 : (q - 1) * (|x| * (|x| * (2 - q))) ≤ (q - 1) * (|x| * |a|) :=
    mul_le_mul_of_nonneg_left (mul_le_mul_of_nonneg_left ha hxp.le) (by linarith)
  nlinarith

end Near

theorem inv_pow (h0 : 0 ≤ u) (hu : u ≤ 1 / 10) : (1 + u) ^ 3 < 2 ∧ 1 / (2 - (1 + u) ^ 3) ≤ (1 + u) ^ 5 := by
  have h3 : (1 + u) ^ 3 ≤ 1331 / 1000 := by
    have := pow_le_pow_left₀ (by linarith) (show 1 + u ≤ 11 / 10 by linarith) 3
    norm_num at this ⊢; linarith
  refine ⟨by linarith, ?_⟩
  rw [div_le_iff₀ (by linarith)]
  have h2 : 0 ≤ u ^ 2 := by positivity
  have h5 : 1 + 5 * u ≤ (1 + u) ^ 5 := by
    have := one_add_mul_le_pow (show (-2 : ℝ) ≤ u by linarith) 5
    push_cast at this; linarith
  have h6 : 2 - (1 + u) ^ 3 ≥ 1 - 3.31 * u := by nlinarith
  have h7 : (1 + 5 * u) * (1 - 3.31 * u) ≤ (1 + u) ^ 5 * (2 - (1 + u) ^ 3) :=
    mul_le_mul h5 h6 (by linarith) (by positivity)
  nlinarith

/-! ## grid constants -/

theorem near_pi (he : RelErr rnd u) : Near (rnd Real.pi) Real.pi (Real.pi * (1 + u)) Real.pi := by
  have := (Near.exact Real.pi).round he
  rwa [abs_of_pos Real.pi_pos] at this

section theta
variable (hr : Rounding rnd N0) (he : RelErr rnd u) (hu : u ≤ 1 / 10) (c : Cfg) (hN : c.ntheta ≤ N0)
include hr he hN

theorem near_dtheta : Near (c.dtheta : FP rnd).val (c.dtheta : ℝ) (|(c.dtheta : ℝ)| * (1 + u) ^ 3) |(c.dtheta : ℝ)| := by
  have hL : rnd (((c.ntheta : ℤ) - (c.margin : ℤ) : ℤ) : ℝ) = (c.lmax + 1 : ℝ) := by
    rw [hr.int_exact _ (by unfold Cfg.ntheta at hN ⊢; rw [abs_of_nonneg (by push_cast; omega)]; push_cast; omega)]
    unfold Cfg.ntheta; push_cast; ring
  rw [dtheta_real]
  unfold Cfg.dtheta
  simp only [div_val, sub_val, ofInt_val, pi_val, Int.cast_zero, he.zero]
  rw [hL]
  have hLp : (0 : ℝ) < c.lmax + 1 := by positivity
  have n0 : Near (0 : ℝ) 0 0 0 := ⟨by simp, by simp⟩
  have n1 := ((((n0.sub (near_pi he)).round he).mul (Near.exact (1 / (c.lmax + 1 : ℝ)))).round he)
  rw [abs_of_pos (show (0 : ℝ) < 1 / (c.lmax + 1 : ℝ) by positivity)] at n1
  rw [abs_neg, abs_of_pos (show 0 < Real.pi / (c.lmax + 1 : ℝ) from div_pos Real.pi_pos hLp)]
  rw [show rnd (0 - rnd Real.pi) / (c.lmax + 1 : ℝ) = rnd (0 - rnd Real.pi) * (1 / (c.lmax + 1 : ℝ)) by ring,
    show -(Real.pi / (c.lmax + 1 : ℝ)) = (0 - Real.pi) * (1 / (c.lmax + 1 : ℝ)) by ring]
  exact n1.mono2 (le_of_eq (by ring)) (le_of_eq (by ring))

include hu in
theorem near_invDtheta :
    Near (c.invDtheta : FP rnd).val (c.invDtheta : ℝ) (|(c.invDtheta : ℝ)| * (1 + u) ^ 6) |(c.invDtheta : ℝ)| := by
  have h0 := he.nonneg
  obtain ⟨i1, i2⟩ := inv_pow h0 hu
  have hd : (c.dtheta : ℝ) ≠ 0 := by
    rw [dtheta_real]; have := Real.pi_pos; exact (neg_lt_zero.mpr (by positivity)).ne
  have hone : rnd ((1 : ℤ) : ℝ) = 1 := by
    have := hr.int_exact 1 (by unfold Cfg.ntheta at hN; simp; omega); simpa using this
  have n1 := ((near_dtheta hr he c hN).inv hd i1).round he
  have e1 : (c.invDtheta : FP rnd).val = rnd (1 / (c.dtheta : FP rnd).val) := by
    unfold Cfg.invDtheta; simp only [div_val, ofInt_val]; rw [hone]
  have e2 : (c.invDtheta : ℝ) = 1 / c.dtheta := by
    unfold Cfg.invDtheta; simp only [RealArith.div_def, RealArith.ofInt_def]; push_cast; rfl
  rw [e1, e2]
  refine n1.mono ?_
  have h1 : |1 / (c.dtheta : ℝ)| * (1 / (2 - (1 + u) ^ 3)) ≤ |1 / (c.dtheta : ℝ)| * (1 + u) ^ 5 :=
    mul_le_mul_of_nonneg_left i2 (abs_nonneg _)
  have h2 := mul_le_mul_of_nonneg_right h1 (show 0 ≤ 1 + u by linarith)
  refine h2.trans (le_of_eq (by ring))

theorem near_theta0 : Near (c.theta0 : FP rnd).val (c.theta0 : ℝ) ((c.theta0 : ℝ) * (1 + u) ^ 5) (c.theta0 : ℝ) := by
  have h0 := he.nonneg
  have hh : rnd (((c.halfmargin : ℕ) : ℤ) : ℝ) = c.halfmargin := by
    rw [hr.int_exact _ (by unfold Cfg.ntheta Cfg.margin at hN; simp; omega)]; simp
  have n1 := (((Near.exact (c.halfmargin : ℝ)).mul (near_dtheta hr he c hN)).round he)
  have n2 := ((near_pi he).sub n1).round he
  have e1 : (c.theta0 : FP rnd).val = rnd (rnd Real.pi - rnd (c.halfmargin * (c.dtheta : FP rnd).val)) := by
    unfold Cfg.theta0; simp only [sub_val, mul_val, ofInt_val, pi_val]; rw [hh]
  have e2 : (c.theta0 : ℝ) = Real.pi - c.halfmargin * c.dtheta := by
    unfold Cfg.theta0
    simp only [RealArith.sub_def, RealArith.mul_def, RealArith.ofInt_def, RealArith.pi_def]; push_cast; rfl
  have hd : |(c.dtheta : ℝ)| = -c.dtheta := by
    rw [dtheta_real, abs_neg, neg_neg]; exact abs_of_pos (by have := Real.pi_pos; positivity)
  have hdn : (c.dtheta : ℝ) ≤ 0 := by rw [← neg_nonneg, ← hd]; exact abs_nonneg _
  rw [abs_of_nonneg (Nat.cast_nonneg _), hd] at n2
  rw [e1, e2]
  refine n2.mono2 (le_of_eq (by ring)) ?_
  have p2 : (1 + u) ^ 2 ≤ (1 + u) ^ 5 := pow_le_pow_right₀ (by linarith) (by norm_num)
  have := mul_le_mul_of_nonneg_left p2 Real.pi_pos.le
  have hx : 0 ≤ (c.halfmargin : ℝ) * -(c.dtheta : ℝ) := mul_nonneg (Nat.cast_nonneg _) (by linarith)
  nlinarith

/-- Bound on the error of the position of a colatitude in the rings. -/
noncomputable def thetaErr (c : Cfg) (u : ℝ) : ℝ := (2 * (c.lmax + 1) + c.halfmargin) * ((1 + u) ^ 13 - 1)

/-- The exact value of the folded colatitude. -/
noncomputable def foldExact (rnd : ℝ → ℝ) (theta : ℝ) : ℝ := if rnd (Real.pi / 2) < theta then Real.pi - theta else theta

omit hN in
theorem near_fold {t : FP rnd} (h0 : 0 ≤ t.val) (h1 : t.val ≤ rnd Real.pi) (hu : u ≤ 1 / 10) :
    Near (foldGt t).val (foldExact rnd t.val) (Real.pi * (1 + u) ^ 3) Real.pi := by
  have hu0 := he.nonneg
  have hpi := Real.pi_pos
  have npi := (near_pi he).2
  have hpi' : rnd Real.pi ≤ Real.pi * (1 + u) := by have := (abs_le.mp npi).2; linarith
  rw [foldGt_float]
  unfold foldExact
  split
  · rename_i hlt
    have h2 : 0 < rnd (Real.pi / 2) := by
      have := (near_pi he).2
      have h3 := (abs_le.mp this).1
      have := hr.pi_twice
      nlinarith
    have n1 := ((near_pi he).sub (Near.exact t.val)).round he
    rw [abs_of_nonneg h0] at n1
    refine ⟨?_, n1.2.trans ?_⟩
    · rw [abs_le]
      have := hr.pi_twice
      constructor <;> nlinarith
    · have : u * t.val ≤ u * (Real.pi * (1 + u)) := mul_le_mul_of_nonneg_left (h1.trans hpi') hu0
      have h4 : 0 ≤ Real.pi * u ^ 2 := by positivity
      have h5 : 0 ≤ Real.pi * u ^ 3 := by positivity
      nlinarith
  · rename_i hge
    have h2 : t.val ≤ Real.pi := by
      have := hr.pi_twice
      nlinarith [not_lt.mp hge]
    refine ⟨by rw [abs_of_nonneg h0]; exact h2, ?_⟩
    rw [sub_self, abs_zero]
    have : 1 ≤ (1 + u) ^ 3 := one_le_pow₀ (by linarith)
    nlinarith

include hu in
/-- The position of a sample in the rings. -/
theorem near_thetaPos {t : FP rnd} (h0 : 0 ≤ t.val) (h1 : t.val ≤ rnd Real.pi) :
    |(Arith.mul (Arith.sub (foldGt t) c.theta0) (c.invDtheta : FP rnd)).val -
      (foldExact rnd t.val - c.theta0) * c.invDtheta| ≤ thetaErr c u := by
  have hu0 := he.nonneg
  have n := ((((near_fold hr he h0 h1 hu).sub (near_theta0 hr he c hN)).round he).mul (near_invDtheta hr he hu c hN)).round he
  simp only [mul_val, sub_val]
  refine n.2.trans ?_
  have hL : (0 : ℝ) < c.lmax + 1 := by positivity
  have hpi := Real.pi_pos
  have habs : |(c.invDtheta : ℝ)| = (c.lmax + 1) / Real.pi := by
    rw [invDtheta_real, abs_neg, abs_of_pos (by positivity)]
  rw [habs, theta0_real]
  have e1 : (Real.pi + (Real.pi + c.halfmargin * (Real.pi / (c.lmax + 1)))) * ((c.lmax + 1) / Real.pi) = 2 * (c.lmax + 1) + c.halfmargin := by
    field_simp; ring
  unfold thetaErr
  rw [← e1]
  set T := Real.pi + c.halfmargin * (Real.pi / (c.lmax + 1 : ℝ)) with hT
  have hT0 : 0 ≤ T := by positivity
  set D := ((c.lmax : ℝ) + 1) / Real.pi
  have hD0 : 0 ≤ D := by positivity
  have p3 : (1 + u) ^ 3 ≤ (1 + u) ^ 5 := pow_le_pow_right₀ (by linarith) (by norm_num)
  have h2 : (Real.pi * (1 + u) ^ 3 + T * (1 + u) ^ 5) * (1 + u) ^ 8 * D ≤ (Real.pi + T) * (1 + u) ^ 5 * (1 + u) ^ 8 * D := by
    have := mul_le_mul_of_nonneg_left p3 hpi.le
    have h3 : Real.pi * (1 + u) ^ 3 + T * (1 + u) ^ 5 ≤ (Real.pi + T) * (1 + u) ^ 5 := by linarith
    exact mul_le_mul_of_nonneg_right (mul_le_mul_of_nonneg_right h3 (by positivity)) hD0
  have e2 : (Real.pi + T) * (1 + u) ^ 5 * (1 + u) ^ 8 * D = (Real.pi + T) * D * (1 + u) ^ 13 := by ring
  have e3 : (Real.pi * (1 + u) ^ 3 + T * (1 + u) ^ 5) * (1 + u) * (D * (1 + u) ^ 6) * (1 + u) =
    (Real.pi * (1 + u) ^ 3 + T * (1 + u) ^ 5) * (1 + u) ^ 8 * D := by ring
  linarith

include hu in
/-- Ring and fraction of a sample: the fraction used by the code lies between the central nodes and approximates the exact one. -/
theorem thetaFrac {t : FP rnd} (h0 : 0 ≤ t.val) (h1 : t.val ≤ rnd Real.pi) (herr : thetaErr c u ≤ 1 / 2) :
    ∃ it0 : ℤ, betaToItheta c (foldGt t) = ok it0 ∧ 0 ≤ it0 ∧ it0 + c.npoints ≤ c.ntheta ∧
      |(Arith.sub (Arith.mul (Arith.sub (foldGt t) c.theta0) (c.invDtheta : FP rnd)) (Arith.ofInt it0) : FP rnd).val -
        ((foldExact rnd t.val - c.theta0) * c.invDtheta - it0)| ≤ thetaErr c u + u * (c.ioffset + 1) ∧
      (c.ioffset : ℝ) ≤ (Arith.sub (Arith.mul (Arith.sub (foldGt t) c.theta0) (c.invDtheta : FP rnd)) (Arith.ofInt it0) : FP rnd).val ∧
      (Arith.sub (Arith.mul (Arith.sub (foldGt t) c.theta0) (c.invDtheta : FP rnd)) (Arith.ofInt it0) : FP rnd).val ≤ c.ioffset + 1 := by
  have hu0 := he.nonneg
  have hpos := near_thetaPos hr he hu c hN h0 h1
  have hff : foldGt (foldGt t) = foldGt t := by
    rw [foldGt_float (foldGt t), if_neg (not_lt.mpr (foldGt_float_le hr t))]
  set pos := (Arith.mul (Arith.sub (foldGt t) c.theta0) (c.invDtheta : FP rnd)) with hposd
  rw [grid_pos] at hpos
  have hL : (0 : ℝ) < c.lmax + 1 := by positivity
  have hpi := Real.pi_pos
  have npi := (abs_le.mp (near_pi he).2)
  have hf0 : -1 / 4 ≤ foldExact rnd t.val * ((c.lmax + 1 : ℝ) / Real.pi) ∧ foldExact rnd t.val * ((c.lmax + 1 : ℝ) / Real.pi) ≤ c.lmax + 1 := by
    have hf := (near_fold hr he h0 h1 hu).1
    rw [← mul_div_assoc, le_div_iff₀ hpi, div_le_iff₀ hpi]
    refine ⟨?_, ?_⟩
    · have h3 : -(Real.pi * u) ≤ foldExact rnd t.val := by
        unfold foldExact
        split
        · linarith
        · have : 0 ≤ Real.pi * u := by positivity
          linarith
      have h4 : u * (c.lmax + 1) ≤ 1 / 4 := by
        unfold thetaErr at herr
        have : 1 + 13 * u ≤ (1 + u) ^ 13 := by
          have := one_add_mul_le_pow (show (-2 : ℝ) ≤ u by linarith) 13
          push_cast at this; linarith
        have h5 : (2 * ((c.lmax : ℝ) + 1) + c.halfmargin) * (13 * u) ≤ (2 * (c.lmax + 1) + c.halfmargin) * ((1 + u) ^ 13 - 1) :=
          mul_le_mul_of_nonneg_left (by linarith) (by positivity)
        have h6 : 0 ≤ (c.halfmargin : ℝ) * u := by positivity
        have h7 : 0 ≤ (c.lmax + 1 : ℝ) * u := by positivity
        nlinarith
      have h5 := mul_le_mul_of_nonneg_right h3 hL.le
      have h6 := mul_le_mul_of_nonneg_left h4 hpi.le
      nlinarith
    · have := mul_le_mul_of_nonneg_right ((abs_le.mp hf).2) hL.le
      linarith
  obtain ⟨g0, g1⟩ := hf0
  have hlo : (c.halfmargin : ℝ) - 1 / 2 ≤ pos.val := by have := (abs_le.mp hpos).1; linarith
  have hhi : pos.val < c.lmax + 1 + c.halfmargin + 1 := by have := (abs_le.mp hpos).2; linarith
  have hhm : (1 : ℝ) ≤ c.halfmargin := by unfold Cfg.halfmargin; push_cast; linarith [Nat.cast_nonneg (α := ℝ) (c.npoints / 2)]
  have hp0 : 0 ≤ pos.val := by linarith
  have hfl : (c.halfmargin : ℤ) - 1 ≤ ⌊pos.val⌋ := Int.le_floor.mpr (by push_cast; linarith)
  have hfl1 := Int.floor_le pos.val
  have hfl2 := Int.lt_floor_add_one pos.val
  have hfu : ⌊pos.val⌋ ≤ (c.lmax : ℤ) + 1 + c.halfmargin := by
    have : ⌊pos.val⌋ < (c.lmax : ℤ) + 1 + c.halfmargin + 1 := Int.floor_lt.mpr (by push_cast; linarith)
    omega
  have hit : betaToItheta c (foldGt t) = ok (⌊pos.val⌋ - c.ioffset) := by
    unfold betaToItheta
    rw [hff]
    simp only [← hposd, toInt_eq, ok_bind]
    rw [truncR_nonneg hp0]
    unfold Cfg.ntheta Cfg.margin Cfg.halfmargin Cfg.npoints Cfg.ioffset at *
    rw [if_neg (by push_cast; omega), if_neg (by omega)]
  obtain ⟨r0, r1⟩ := betaToItheta_range hit
  have hexact : rnd (((⌊pos.val⌋ - c.ioffset : ℤ)) : ℝ) = ((⌊pos.val⌋ - c.ioffset : ℤ) : ℝ) :=
    hr.int_exact _ (by rw [abs_of_nonneg r0]; omega)
  have hint : ∀ k : ℕ, k ≤ c.ntheta → rnd (k : ℝ) = k := fun k hk => by
    have := hr.int_exact (k : ℤ) (by simp; omega); simpa using this
  have hio : c.ioffset + 1 ≤ c.ntheta := by
    unfold Cfg.ioffset Cfg.ntheta Cfg.margin Cfg.halfmargin Cfg.npoints; omega
  have hx : pos.val - ((⌊pos.val⌋ - c.ioffset : ℤ) : ℝ) = pos.val - ⌊pos.val⌋ + c.ioffset := by push_cast; ring
  refine ⟨_, hit, r0, r1, ?_, ?_, ?_⟩
  · rw [sub_val, ofInt_val, hexact, grid_pos]
    have h3 := he.rel (pos.val - ((⌊pos.val⌋ - c.ioffset : ℤ) : ℝ))
    have h4 : |pos.val - ((⌊pos.val⌋ - c.ioffset : ℤ) : ℝ)| ≤ c.ioffset + 1 := by
      rw [hx, abs_of_nonneg (by linarith [Nat.cast_nonneg (α := ℝ) c.ioffset])]; linarith
    have h5 := mul_le_mul_of_nonneg_left h4 hu0
    have h6 := abs_add_le (rnd (pos.val - ((⌊pos.val⌋ - c.ioffset : ℤ) : ℝ)) - (pos.val - ((⌊pos.val⌋ - c.ioffset : ℤ) : ℝ)))
      (pos.val - (↑c.lmax + 1 + ↑c.halfmargin - foldExact rnd t.val * ((↑c.lmax + 1) / Real.pi)))
    rw [show rnd (pos.val - ((⌊pos.val⌋ - c.ioffset : ℤ) : ℝ)) - (pos.val - ((⌊pos.val⌋ - c.ioffset : ℤ) : ℝ)) +
      (pos.val - (↑c.lmax + 1 + ↑c.halfmargin - foldExact rnd t.val * ((↑c.lmax + 1) / Real.pi))) =
      rnd (pos.val - ((⌊pos.val⌋ - c.ioffset : ℤ) : ℝ)) -
        (↑c.lmax + 1 + ↑c.halfmargin - foldExact rnd t.val * ((↑c.lmax + 1) / Real.pi) - ((⌊pos.val⌋ - c.ioffset : ℤ) : ℝ)) by ring] at h6
    linarith
  · rw [sub_val, ofInt_val, hexact, ← hint c.ioffset (by omega)]
    exact hr.mono (by rw [hx]; linarith)
  · rw [sub_val, ofInt_val, hexact]
    have := hint (c.ioffset + 1) hio
    push_cast at this
    rw [← this]
    exact hr.mono (by rw [hx]; linarith)

end theta

/-! ## longitudes -/

section phi
variable (hr : Rounding rnd N0) (he : RelErr rnd u) (hu : u ≤ 1 / 10) (c : Cfg) (hN : c.nphi ≤ N0) (h2 : 2 ≤ N0)
include hr he hN h2

theorem near_dphi : Near (c.dphi : FP rnd).val (c.dphi : ℝ) (|(c.dphi : ℝ)| * (1 + u) ^ 3) |(c.dphi : ℝ)| := by
  have h0 := he.nonneg
  have hn : rnd (((c.nphi : ℕ) : ℤ) : ℝ) = c.nphi := by rw [hr.int_exact _ (by simp; omega)]; simp
  have htwo : rnd ((2 : ℤ) : ℝ) = 2 := by have := hr.int_exact 2 (by simp; omega); simpa using this
  have hnp : (0 : ℝ) < c.nphi := by unfold Cfg.nphi; push_cast; positivity
  have hpi := Real.pi_pos
  rw [dphi_real]
  unfold Cfg.dphi
  simp only [div_val, mul_val, ofInt_val, pi_val]
  rw [hn, htwo]
  have n1 := (((((Near.exact (2 : ℝ)).mul (near_pi he)).round he).mul (Near.exact (1 / (c.nphi : ℝ)))).round he)
  rw [abs_of_pos (show (0 : ℝ) < 1 / (c.nphi : ℝ) by positivity), abs_of_pos (show (0 : ℝ) < 2 by norm_num)] at n1
  rw [abs_of_pos (show 0 < 2 * Real.pi / (c.nphi : ℝ) by positivity)]
  rw [show rnd (2 * rnd Real.pi) / (c.nphi : ℝ) = rnd (2 * rnd Real.pi) * (1 / (c.nphi : ℝ)) by ring,
    show 2 * Real.pi / (c.nphi : ℝ) = 2 * Real.pi * (1 / (c.nphi : ℝ)) by ring]
  exact n1.mono2 (le_of_eq (by ring)) (le_of_eq (by ring))

include hu in
theorem near_invDphi1 : Near (1 / (c.dphi : FP rnd).val) (1 / (c.dphi : ℝ)) (1 / (c.dphi : ℝ) * (1 + u) ^ 5) (1 / (c.dphi : ℝ)) := by
  have h0 := he.nonneg
  obtain ⟨i1, i2⟩ := inv_pow h0 hu
  have hd := dphi_pos c
  have n1 := (near_dphi hr he c hN h2).inv hd.ne' i1
  have hp : 0 < 1 / (c.dphi : ℝ) := by positivity
  rw [abs_of_pos hp] at n1
  exact n1.mono (mul_le_mul_of_nonneg_left i2 hp.le)

/-- Bound on the error of the position of a longitude on the grid. -/
noncomputable def phiErr (c : Cfg) (u phi : ℝ) : ℝ := (|phi| / c.dphi + c.nphi / 4) * ((1 + u) ^ 8 - 1) + u * c.nphi

include hu in
theorem near_phiPos (phi : FP rnd) :
    |(Arith.sub (Arith.mul phi c.invDphi) (c.phioffset : FP rnd)).val - (phi.val - Real.pi / 2) / c.dphi| ≤
      (|phi.val| / c.dphi + c.nphi / 4) * ((1 + u) ^ 8 - 1) := by
  have h0 := he.nonneg
  have hone : rnd ((1 : ℤ) : ℝ) = 1 := by have := hr.int_exact 1 (by simp; omega); simpa using this
  have hd := dphi_pos c
  have hpi := Real.pi_pos
  have hnp : (0 : ℝ) < c.nphi := by unfold Cfg.nphi; push_cast; positivity
  have n1 := near_invDphi1 hr he hu c hN h2
  have nh := (Near.exact (Real.pi / 2)).round he
  rw [abs_of_pos (show 0 < Real.pi / 2 by positivity)] at nh
  have n2 := ((((Near.exact phi.val).mul (n1.round he)).round he).sub ((nh.mul n1).round he)).round he
  have e1 : (Arith.sub (Arith.mul phi c.invDphi) (c.phioffset : FP rnd)).val =
      rnd (rnd (phi.val * rnd (1 / (c.dphi : FP rnd).val)) - rnd (rnd (Real.pi / 2) * (1 / (c.dphi : FP rnd).val))) := by
    unfold Cfg.invDphi Cfg.phioffset
    simp only [sub_val, mul_val, div_val, ofInt_val, halfpi_val, hone, mul_one_div]
  rw [e1, show (phi.val - Real.pi / 2) / (c.dphi : ℝ) = phi.val * (1 / c.dphi) - Real.pi / 2 * (1 / c.dphi) by ring]
  refine n2.2.trans (le_of_eq ?_)
  have e2 : Real.pi / 2 * (1 / (c.dphi : ℝ)) = c.nphi / 4 := by
    rw [dphi_real]; field_simp; ring
  rw [← e2]
  ring

include hu in
/-- Cell and fraction of a longitude. -/
theorem phiFrac (hio : c.ioffset + 1 ≤ N0) (hord : c.order / 2 ≤ c.nphi) (phi : FP rnd) :
    ∃ (ip0 : ℤ) (fp : FP rnd) (xp : ℝ) (k : ℤ), phiCell c phi = ok (ip0, fp) ∧ 0 ≤ ip0 ∧ ip0 < c.nphi ∧
      phi.val = Real.pi / 2 + (ip0 + xp) * c.dphi + 2 * Real.pi * k ∧
      |fp.val - xp| ≤ phiErr c u phi.val + u * (c.ioffset + 1) ∧ (c.ioffset : ℝ) ≤ fp.val ∧ fp.val ≤ c.ioffset + 1 := by
  have hu0 := he.nonneg
  have hnp : (0 : ℝ) < c.nphi := by unfold Cfg.nphi; push_cast; positivity
  have hn : (Arith.ofInt (c.nphi : ℤ) : FP rnd).val = c.nphi := by
    rw [ofInt_val, hr.int_exact _ (by simp; omega)]; simp
  have hpos := near_phiPos hr he hu c hN h2 phi
  unfold phiCell
  dsimp only
  set f0 := (Arith.sub (Arith.mul phi c.invDphi) (c.phioffset : FP rnd)) with hf0
  have hrep : rnd (Arith.ofInt (c.nphi : ℤ) : FP rnd).val = (Arith.ofInt (c.nphi : ℤ) : FP rnd).val := by rw [ofInt_val, hr.idem]
  obtain ⟨g0, g1⟩ := C42_fmodulo_rounded hr f0 (Arith.ofInt (c.nphi : ℤ)) (by rw [hn]; exact hnp) hrep
  -- the remainder differs from the position by full turns, up to one rounding
  have hmod : ∃ t : ℤ, |(fmodulo f0 (Arith.ofInt (c.nphi : ℤ))).val - (f0.val - c.nphi * t)| ≤ u * c.nphi := by
    have hz : 0 ≤ u * (c.nphi : ℝ) := by positivity
    unfold fmodulo
    have e0 : (Arith.ofInt 0 : FP rnd).val = 0 := by simp [hr.zero]
    have hfm : (Arith.fmod f0 (Arith.ofInt (c.nphi : ℤ)) : FP rnd).val = f0.val - c.nphi * (truncR (f0.val / c.nphi) : ℝ) := by
      show f0.val - (Arith.ofInt (c.nphi : ℤ) : FP rnd).val * _ = _
      rw [hn]
    split
    · split
      · exact ⟨0, by simpa using hz⟩
      · exact ⟨truncR (f0.val / c.nphi), by rw [hfm, sub_self, abs_zero]; exact hz⟩
    · rename_i hv
      rw [FP.le_iff, e0, not_le] at hv
      obtain ⟨_, tr⟩ := truncR_sub (f0.val / c.nphi)
      obtain ⟨b1, b2⟩ := tr (div_neg_of_neg_of_pos hv hnp)
      have q : f0.val - c.nphi * (truncR (f0.val / c.nphi) : ℝ) = c.nphi * (f0.val / c.nphi - truncR (f0.val / c.nphi)) := by
        rw [mul_sub, mul_div_cancel₀ _ hnp.ne']
      have hs : |f0.val - c.nphi * (truncR (f0.val / c.nphi) : ℝ) + c.nphi| ≤ c.nphi := by
        rw [q, abs_le]; constructor <;> nlinarith
      have hrel := (he.rel (f0.val - c.nphi * (truncR (f0.val / c.nphi) : ℝ) + c.nphi)).trans (mul_le_mul_of_nonneg_left hs hu0)
      have hadd : (Arith.add (Arith.fmod f0 (Arith.ofInt (c.nphi : ℤ))) (Arith.ofInt (c.nphi : ℤ)) : FP rnd).val =
          rnd (f0.val - c.nphi * (truncR (f0.val / c.nphi) : ℝ) + c.nphi) := by rw [add_val, hfm, hn]
      dsimp only
      split
      · rename_i heq
        rw [FP.eqb_iff, hadd, hn] at heq
        refine ⟨truncR (f0.val / c.nphi), ?_⟩
        rw [heq] at hrel
        rw [e0]
        rw [show (0 : ℝ) - (f0.val - c.nphi * (truncR (f0.val / c.nphi) : ℝ)) =
          c.nphi - (f0.val - c.nphi * (truncR (f0.val / c.nphi) : ℝ) + c.nphi) by ring]
        exact hrel
      · refine ⟨truncR (f0.val / c.nphi) - 1, ?_⟩
        rw [hadd]
        push_cast
        rw [show f0.val - c.nphi * ((truncR (f0.val / c.nphi) : ℝ) - 1) = f0.val - c.nphi * (truncR (f0.val / c.nphi) : ℝ) + c.nphi by ring]
        exact hrel
  obtain ⟨t, ht⟩ := hmod
  rw [hn] at g1
  simp only [toInt_eq, ok_bind]
  generalize fmodulo f0 (Arith.ofInt (c.nphi : ℤ)) = f at *
  rw [truncR_nonneg g0]
  have hfl0 : 0 ≤ ⌊f.val⌋ := Int.floor_nonneg.mpr g0
  have hfl1 : ⌊f.val⌋ < c.nphi := Int.floor_lt.mpr (by exact_mod_cast g1)
  have a1 := Int.floor_le f.val
  have a2 := Int.lt_floor_add_one f.val
  have hexact : rnd (((⌊f.val⌋ - c.ioffset : ℤ)) : ℝ) = ((⌊f.val⌋ - c.ioffset : ℤ) : ℝ) :=
    hr.int_exact _ (by rw [abs_le]; omega)
  have hint : ∀ k : ℕ, k ≤ N0 → rnd (k : ℝ) = k := fun k hk => by
    have := hr.int_exact (k : ℤ) (by simp; omega); simpa using this
  have hx : f.val - ((⌊f.val⌋ - c.ioffset : ℤ) : ℝ) = f.val - ⌊f.val⌋ + c.ioffset := by push_cast; ring
  have hd := dphi_pos c
  set X := (phi.val - Real.pi / 2) / (c.dphi : ℝ) with hX
  have hphi : phi.val = Real.pi / 2 + X * c.dphi := by
    rw [hX, div_mul_cancel₀ _ hd.ne']; ring
  have hturn : (c.nphi : ℝ) * c.dphi = 2 * Real.pi := by
    rw [dphi_real, mul_div_cancel₀ _ hnp.ne']
  have hfrac : |rnd (f.val - ((⌊f.val⌋ - c.ioffset : ℤ) : ℝ)) - (X - c.nphi * t - ((⌊f.val⌋ - c.ioffset : ℤ) : ℝ))| ≤
      phiErr c u phi.val + u * (c.ioffset + 1) := by
    have h3 := he.rel (f.val - ((⌊f.val⌋ - c.ioffset : ℤ) : ℝ))
    have h4 : |f.val - ((⌊f.val⌋ - c.ioffset : ℤ) : ℝ)| ≤ c.ioffset + 1 := by
      rw [hx, abs_of_nonneg (by linarith [Nat.cast_nonneg (α := ℝ) c.ioffset])]; linarith
    have h5 := mul_le_mul_of_nonneg_left h4 hu0
    unfold phiErr
    have h6 := abs_add_le (rnd (f.val - ((⌊f.val⌋ - c.ioffset : ℤ) : ℝ)) - (f.val - ((⌊f.val⌋ - c.ioffset : ℤ) : ℝ)))
      (f.val - (f0.val - c.nphi * t) + (f0.val - X))
    have h7 := abs_add_le (f.val - (f0.val - c.nphi * t)) (f0.val - X)
    rw [show rnd (f.val - ((⌊f.val⌋ - c.ioffset : ℤ) : ℝ)) - (f.val - ((⌊f.val⌋ - c.ioffset : ℤ) : ℝ)) +
      (f.val - (f0.val - c.nphi * t) + (f0.val - X)) =
      rnd (f.val - ((⌊f.val⌋ - c.ioffset : ℤ) : ℝ)) - (X - c.nphi * t - ((⌊f.val⌋ - c.ioffset : ℤ) : ℝ)) by ring] at h6
    linarith
  have hlo : (c.ioffset : ℝ) ≤ rnd (f.val - ((⌊f.val⌋ - c.ioffset : ℤ) : ℝ)) := by
    rw [← hint c.ioffset (by omega)]
    exact hr.mono (by rw [hx]; linarith)
  have hhi : rnd (f.val - ((⌊f.val⌋ - c.ioffset : ℤ) : ℝ)) ≤ c.ioffset + 1 := by
    have := hint (c.ioffset + 1) hio
    push_cast at this
    rw [← this]
    exact hr.mono (by rw [hx]; linarith)
  have hfp : (Arith.sub f (Arith.ofInt (⌊f.val⌋ - c.ioffset)) : FP rnd).val = rnd (f.val - ((⌊f.val⌋ - c.ioffset : ℤ) : ℝ)) := by
    rw [sub_val, ofInt_val, hexact]
  refine ⟨_, _, X - c.nphi * t - ((⌊f.val⌋ - c.ioffset : ℤ) : ℝ),
    (if ⌊f.val⌋ - (c.ioffset : ℤ) < 0 then t - 1 else t), rfl, ?_, ?_, ?_, by rw [hfp]; exact hfrac, by rw [hfp]; exact hlo, by rw [hfp]; exact hhi⟩
  · unfold Cfg.ioffset; split_ifs <;> omega
  · unfold Cfg.ioffset; split_ifs <;> omega
  · have hge : ¬ (⌊f.val⌋ - (c.ioffset : ℤ) ≥ c.nphi) := by omega
    rw [if_neg hge]
    conv_lhs => rw [hphi]
    rw [← hturn]
    split_ifs
    · push_cast; ring
    · push_cast; ring

end phi

end Verif.Tod
