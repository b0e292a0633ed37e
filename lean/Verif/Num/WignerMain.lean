import Verif.Num.WignerCalc
import Mathlib.Analysis.Real.Pi.Bounds

/-!
# The Wigner generator: results (C38, C39)
-/

namespace Verif.Num
open Verif Res

/-! ## the angle -/

/-- The angle the generator works with: the input reduced to `(-π, π]`, moved by at most `1e-15` at the poles. -/
noncomputable def genAngle (t : ℝ) : ℝ := if (adjTheta t).1 then -(adjTheta t).2 else (adjTheta t).2

theorem adjTheta_range (t : ℝ) : 0 < (adjTheta t).2 ∧ (adjTheta t).2 < Real.pi := by
  have hpi := Real.pi_gt_three
  obtain ⟨h0, h1, _⟩ := Tod.C42_fmodulo (v1 := t) (v2 := 2 * Real.pi) (by positivity)
  unfold adjTheta
  set x := Tod.fmodulo t (2 * Real.pi)
  simp only
  set y := if x > Real.pi then x - 2 * Real.pi else x with hy
  have hy1 : |y| ≤ Real.pi := by
    rw [abs_le, hy]; split <;> constructor <;> linarith
  set z := if |y| = 0 then (1:ℝ) / 10 ^ 16 else |y| with hz
  have hz1 : 0 < z ∧ z ≤ Real.pi := by
    rw [hz]; split
    · constructor
      · positivity
      · have : (1:ℝ) / 10 ^ 16 ≤ 1 := by norm_num
        linarith
    · rename_i h
      exact ⟨lt_of_le_of_ne (abs_nonneg _) (Ne.symm h), hy1⟩
  split
  · constructor
    · have : (1:ℝ) / 10 ^ 15 ≤ 1 := by norm_num
      linarith
    · have : (0:ℝ) < 1 / 10 ^ 15 := by positivity
      linarith
  · rename_i h
    refine ⟨hz1.1, lt_of_le_of_ne hz1.2 ?_⟩
    intro e
    apply h
    rw [e, sub_self, abs_zero]; positivity

theorem adjTheta_trig (t : ℝ) : 0 < Real.cos (1 / 2 * (adjTheta t).2) ∧ 0 < Real.sin (1 / 2 * (adjTheta t).2) := by
  obtain ⟨h0, h1⟩ := adjTheta_range t
  exact ⟨Real.cos_pos_of_mem_Ioo ⟨by linarith, by linarith⟩, Real.sin_pos_of_pos_of_lt_pi (by linarith) (by linarith)⟩

/-- Inside the open interval, away from the poles, the angle is not changed. -/
theorem genAngle_eq {t : ℝ} (h0 : 0 < t) (h1 : t < Real.pi - 1 / 10 ^ 15) : genAngle t = t ∧ adjTheta t = (false, t) := by
  have hpi := Real.pi_pos
  have hs : (0:ℝ) < 1 / 10 ^ 15 := by positivity
  have hf : Tod.fmodulo t (2 * Real.pi) = t := by
    rw [Tod.fmodulo_real (by positivity)]
    have : ⌊t / (2 * Real.pi)⌋ = 0 := by
      rw [Int.floor_eq_iff]; push_cast
      constructor
      · positivity
      · rw [div_lt_iff₀ (by positivity)]; linarith
    rw [this]; simp
  have : adjTheta t = (false, t) := by
    unfold adjTheta
    simp only [hf]
    have e1 : ¬ t > Real.pi := by linarith
    rw [if_neg e1, abs_of_pos h0, if_neg h0.ne']
    have e2 : ¬ |t - Real.pi| ≤ 1 / 10 ^ 15 := by
      rw [abs_of_neg (by linarith)]; linarith
    rw [if_neg e2]
    simp [h0.le]
  refine ⟨?_, this⟩
  unfold genAngle; rw [this]; rfl

/-- At the north pole the generator works at `1e-16`, at the south pole at `π - 1e-15`. -/
theorem genAngle_poles : genAngle 0 = 1 / 10 ^ 16 ∧ genAngle Real.pi = Real.pi - 1 / 10 ^ 15 := by
  have hpi := Real.pi_gt_three
  have hf0 : Tod.fmodulo (0:ℝ) (2 * Real.pi) = 0 := by
    rw [Tod.fmodulo_real (by positivity)]; simp
  have hf1 : Tod.fmodulo Real.pi (2 * Real.pi) = Real.pi := by
    rw [Tod.fmodulo_real (by positivity)]
    have : ⌊Real.pi / (2 * Real.pi)⌋ = 0 := by
      rw [Int.floor_eq_iff]; push_cast
      constructor
      · positivity
      · rw [div_lt_iff₀ (by positivity)]; linarith
    rw [this]; simp
  constructor
  · unfold genAngle adjTheta
    simp only [hf0]
    rw [if_neg (by linarith : ¬ (0:ℝ) > Real.pi)]
    simp only [abs_zero, if_true, lt_irrefl, decide_false, Bool.false_eq_true, if_false]
    rw [if_neg]
    have h1 : (1:ℝ) / 10 ^ 16 ≤ 1 := by norm_num
    have h2 : (1:ℝ) / 10 ^ 15 ≤ 1 := by norm_num
    rw [abs_of_neg (by linarith)]; linarith
  · unfold genAngle adjTheta
    simp only [hf1]
    have hd : decide (Real.pi < 0) = false := by simp [Real.pi_pos.le]
    rw [if_neg (lt_irrefl _), abs_of_pos Real.pi_pos, hd, if_neg Real.pi_pos.ne', sub_self, abs_zero]
    have h15 : (0:ℝ) ≤ 1 / 10 ^ 15 := by positivity
    simp only [h15, if_true, Bool.false_eq_true, if_false]

theorem cos_genAngle (t : ℝ) : Real.cos (genAngle t) = Real.cos (adjTheta t).2 := by
  unfold genAngle; split <;> simp

/-- The angle is that of the input modulo `2π`, up to `1e-15`. -/
theorem genAngle_close (t : ℝ) : ∃ k : ℤ, |genAngle t - (t - 2 * Real.pi * k)| ≤ 1 / 10 ^ 15 := by
  have hpi := Real.pi_gt_three
  obtain ⟨h0, h1, k, hk⟩ := Tod.C42_fmodulo (v1 := t) (v2 := 2 * Real.pi) (by positivity)
  unfold genAngle adjTheta
  set x := Tod.fmodulo t (2 * Real.pi)
  simp only
  set y := if x > Real.pi then x - 2 * Real.pi else x with hy
  have hyk : ∃ k' : ℤ, y = t - 2 * Real.pi * k' := by
    rw [hy]; split
    · exact ⟨k + 1, by push_cast; linarith⟩
    · exact ⟨k, by linarith⟩
  have hy1 : |y| ≤ Real.pi := by
    rw [abs_le, hy]; split <;> constructor <;> linarith
  obtain ⟨k', hk'⟩ := hyk
  refine ⟨k', ?_⟩
  rw [← hk']
  have hs : (0:ℝ) < 1 / 10 ^ 15 := by positivity
  have hs2 : (1:ℝ) / 10 ^ 16 ≤ 1 / 10 ^ 15 := by norm_num
  have hs3 : (1:ℝ) / 10 ^ 15 ≤ 1 := by norm_num
  have hs4 : (0:ℝ) < 1 / 10 ^ 16 := by positivity
  generalize (1:ℝ) / 10 ^ 15 = a at *
  generalize (1:ℝ) / 10 ^ 16 = b at *
  by_cases hlt : y < 0
  · have e1 : |y| = -y := abs_of_neg hlt
    simp only [hlt, decide_true, if_true, e1]
    rw [if_neg (by linarith : ¬ -y = 0)]
    split
    · rename_i h
      rw [e1] at hy1
      rw [abs_le] at h ⊢
      constructor <;> linarith [h.1, h.2]
    · rw [neg_neg, sub_self, abs_zero]; exact hs.le
  · have e1 : |y| = y := abs_of_nonneg (not_lt.mp hlt)
    simp only [hlt, decide_false, Bool.false_eq_true, if_false, e1]
    by_cases hy0 : y = 0
    · rw [if_pos hy0]
      rw [if_neg]
      · rw [hy0, sub_zero, abs_of_pos hs4]; exact hs2
      · rw [abs_of_neg (by linarith)]; linarith
    · rw [if_neg hy0]
      split
      · rename_i h
        rw [e1] at hy1
        rw [abs_le] at h ⊢
        constructor <;> linarith [h.1, h.2]
      · rw [sub_self, abs_zero]; exact hs.le

/-! ## the recurrence is that of the d-functions -/

theorem invl_le (l : ℕ) : 0 ≤ invl l ∧ (l : ℝ) * invl l ≤ 1 ∧ (0 < l → (l : ℝ) * invl l = 1) := by
  unfold invl
  rcases Nat.eq_zero_or_pos l with h | h
  · subst h; simp
  · have : (0:ℝ) < l := by exact_mod_cast h
    rw [if_neg (by omega)]
    have e : (l : ℝ) * (1 / l) = 1 := by field_simp
    exact ⟨by positivity, e.le, fun _ => e⟩

theorem sqrt_sq_sub_ge {l : ℕ} {m : ℤ} (h : |m| ≤ l) : (2 * (l : ℝ) + 1) ≤ √(((l : ℝ) + 1) ^ 2 - (m : ℝ) ^ 2) ^ 2 := by
  have hm : (m : ℝ) ^ 2 ≤ (l : ℝ) ^ 2 := by
    have h1 : |(m : ℝ)| ≤ l := by exact_mod_cast h
    rw [← sq_abs (m : ℝ)]
    exact pow_le_pow_left₀ (abs_nonneg _) h1 2
  have hl0 : (0:ℝ) ≤ l := Nat.cast_nonneg _
  rw [Real.sq_sqrt (by nlinarith)]
  nlinarith

theorem coefF_bounds {m1 m2 : ℤ} {l : ℕ} (h1 : |m1| ≤ l) (h2 : |m2| ≤ l) :
    0 ≤ (coefF m1 m2 l).f0 ∧ (coefF m1 m2 l).f0 ≤ l + 1 ∧ |(coefF m1 m2 l).f1| ≤ 1 ∧
    0 ≤ (coefF m1 m2 l).f2 ∧ (coefF m1 m2 l).f2 ≤ 1 := by
  rw [coefF_f0 h1 h2, coefF_f2 h1 h2]
  have hf1 : (coefF m1 m2 l).f1 = m1 * m2 * invl l * invl (l + 1) := rfl
  rw [hf1]
  have p1 := sq_sub_sq_pos h1
  have p2 := sq_sub_sq_pos h2
  have g1 := sqrt_sq_sub_ge h1
  have g2 := sqrt_sq_sub_ge h2
  have r1 : |(m1 : ℝ)| ≤ l := by exact_mod_cast h1
  have r2 : |(m2 : ℝ)| ≤ l := by exact_mod_cast h2
  have hl0 : (0:ℝ) ≤ l := Nat.cast_nonneg _
  obtain ⟨i0, i1, i2⟩ := invl_le l
  obtain ⟨j0, j1, j2⟩ := invl_le (l + 1)
  -- ratio of the roots
  have ratio : ∀ {m : ℤ}, |m| ≤ l → (l + 1) * √((l : ℝ) ^ 2 - (m : ℝ) ^ 2) ≤ l * √(((l : ℝ) + 1) ^ 2 - (m : ℝ) ^ 2) := by
    intro m hm
    have hmr : |(m : ℝ)| ≤ l := by exact_mod_cast hm
    have u1 : (l + 1) * √((l : ℝ) ^ 2 - (m : ℝ) ^ 2) = √(((l : ℝ) + 1) ^ 2 * ((l : ℝ) ^ 2 - (m : ℝ) ^ 2)) := by
      rw [Real.sqrt_mul (by positivity), Real.sqrt_sq (by positivity)]
    have u2 : l * √(((l : ℝ) + 1) ^ 2 - (m : ℝ) ^ 2) = √((l : ℝ) ^ 2 * (((l : ℝ) + 1) ^ 2 - (m : ℝ) ^ 2)) := by
      rw [Real.sqrt_mul (by positivity), Real.sqrt_sq (by positivity)]
    rw [u1, u2]
    apply Real.sqrt_le_sqrt
    nlinarith [sq_nonneg (m : ℝ)]
  have ra := ratio h1
  have rb := ratio h2
  have s1 : 0 < √(((l : ℝ) + 1) ^ 2 - (m1 : ℝ) ^ 2) := Real.sqrt_pos.mpr p1
  have s2 : 0 < √(((l : ℝ) + 1) ^ 2 - (m2 : ℝ) ^ 2) := Real.sqrt_pos.mpr p2
  have t1 : 0 ≤ √((l : ℝ) ^ 2 - (m1 : ℝ) ^ 2) := Real.sqrt_nonneg _
  have t2 : 0 ≤ √((l : ℝ) ^ 2 - (m2 : ℝ) ^ 2) := Real.sqrt_nonneg _
  generalize √(((l : ℝ) + 1) ^ 2 - (m1 : ℝ) ^ 2) = A at *
  generalize √(((l : ℝ) + 1) ^ 2 - (m2 : ℝ) ^ 2) = B at *
  generalize √((l : ℝ) ^ 2 - (m1 : ℝ) ^ 2) = U at *
  generalize √((l : ℝ) ^ 2 - (m2 : ℝ) ^ 2) = V at *
  have hAB : 2 * (l : ℝ) + 1 ≤ A * B := by
    have h : (2 * (l : ℝ) + 1) ^ 2 ≤ (A * B) ^ 2 := by
      rw [mul_pow, sq (2 * (l : ℝ) + 1)]
      exact mul_le_mul g1 g2 (by positivity) (by positivity)
    exact le_of_sq_le_sq h (by positivity)
  refine ⟨by positivity, ?_, ?_, by positivity, ?_⟩
  · rw [div_le_iff₀ (by positivity)]
    exact mul_le_mul_of_nonneg_left hAB (by positivity)
  · rw [abs_mul, abs_mul, abs_mul, abs_of_nonneg i0, abs_of_nonneg j0]
    have q1 : |(m1 : ℝ)| * invl l ≤ 1 := le_trans (mul_le_mul_of_nonneg_right r1 i0) i1
    have q2 : |(m2 : ℝ)| * invl (l + 1) ≤ 1 := by
      refine le_trans (mul_le_mul_of_nonneg_right (r2.trans ?_) j0) j1
      push_cast; linarith
    calc |(m1 : ℝ)| * |(m2 : ℝ)| * invl l * invl (l + 1) = (|(m1 : ℝ)| * invl l) * (|(m2 : ℝ)| * invl (l + 1)) := by ring
      _ ≤ 1 * 1 := mul_le_mul q1 q2 (by positivity) (by norm_num)
      _ = 1 := by norm_num
  · rw [div_mul_eq_mul_div, div_mul_eq_mul_div, div_le_one (by positivity)]
    have hUV : ((l + 1) * U) * ((l + 1) * V) ≤ (l * A) * (l * B) := mul_le_mul ra rb (by positivity) (by positivity)
    have h3 : (l + 1) * (U * V * (l + 1)) * invl l ≤ (l * invl l) * (l * (A * B)) := by nlinarith
    have h4 : (l * invl l) * (l * (A * B)) ≤ 1 * ((l + 1) * (A * B)) := by
      apply mul_le_mul i1 _ (by positivity) (by norm_num)
      exact mul_le_mul_of_nonneg_right (by linarith) (by positivity)
    have h5 : (l + 1) * (U * V * (l + 1) * invl l) ≤ (l + 1) * (A * B) := by nlinarith
    exact le_of_mul_le_mul_left h5 (by positivity)

theorem prevD_start {m1 m2 : ℤ} {M : ℕ} (hM : max |m1| |m2| = M) (θ : ℝ) : prevD m1 m2 M θ = 0 := by
  unfold prevD; rw [if_pos hM.symm]

theorem prevD_next {m1 m2 : ℤ} {M l : ℕ} (hM : max |m1| |m2| = M) (h : M ≤ l) (θ : ℝ) :
    prevD m1 m2 (l + 1) θ = wignerD l m1 m2 θ := by
  unfold prevD; rw [if_neg (by push_cast; omega)]; rfl

/-- The prepared generator iterates the recurrence of the d-functions. -/
theorem seq_of_prepared {g : Gen} {m1 m2 : ℤ} (hP : Prepared g m1 m2) {M : ℕ} (hM : max |m1| |m2| = M)
    (hle : M ≤ g.lmax) {θ cth : ℝ} (hc : cth = Real.cos θ) :
    Seq g.fx cth M g.lmax (fun l => wignerD l m1 m2 θ) (fun l => prevD m1 m2 l θ) := by
  subst hc
  have hle' : ∀ {l : ℕ}, M ≤ l → |m1| ≤ (l : ℤ) ∧ |m2| ≤ (l : ℤ) := by
    intro l h
    have a := le_max_left |m1| |m2|
    have b := le_max_right |m1| |m2|
    constructor <;> omega
  have hstep : ∀ l, M ≤ l → l < g.lmax → (Real.cos θ - (coefF m1 m2 l).f1) * (coefF m1 m2 l).f0 * wignerD l m1 m2 θ
      - (coefF m1 m2 l).f2 * prevD m1 m2 l θ = wignerD (l + 1) m1 m2 θ := fun l h _ =>
    coefF_rec (hle' h).1 (hle' h).2 θ
  constructor
  · exact hle
  · intro l h1 h2 k
    unfold stepRec
    rw [hP.fx l (by rw [hM]; exact_mod_cast h1) h2]
    simp only [ok_bind]
    rw [← hstep l h1 h2]
    congr 1; ring
  · intro l h; exact prevD_next hM h θ
  · exact prevD_start hM θ
  · intro l h _
    exact abs_wignerD_le_one _ (hle' h).1 (hle' h).2 θ
  · intro l h1 h2
    show |wignerD (l + 1) m1 m2 θ| ≤ _
    rw [← hstep l h1 h2]
    obtain ⟨b0, b1, b2, b3, b4⟩ := coefF_bounds (hle' h1).1 (hle' h1).2
    have hcos := Real.abs_cos_le_one θ
    have hA : |(Real.cos θ - (coefF m1 m2 l).f1) * (coefF m1 m2 l).f0| ≤ 2 * (l + 1) := by
      rw [abs_mul, abs_of_nonneg b0]
      have : |Real.cos θ - (coefF m1 m2 l).f1| ≤ 2 := by
        refine (abs_sub _ _).trans ?_
        linarith
      exact mul_le_mul this b1 b0 (by norm_num)
    refine (abs_sub _ _).trans ?_
    rw [abs_mul ((Real.cos θ - (coefF m1 m2 l).f1) * (coefF m1 m2 l).f0), abs_mul (coefF m1 m2 l).f2, abs_of_nonneg b3]
    refine add_le_add (mul_le_mul_of_nonneg_right hA (abs_nonneg _)) ?_
    calc (coefF m1 m2 l).f2 * |prevD m1 m2 l θ| ≤ 1 * |prevD m1 m2 l θ| := mul_le_mul_of_nonneg_right b4 (abs_nonneg _)
      _ = _ := one_mul _

/-! ## the starting value -/

theorem logsum_factorial (n : ℕ) : ∑ j ∈ Finset.range n, Real.log ((j : ℝ) + 1) = Real.log (n.factorial : ℝ) := by
  induction n with
  | zero => simp
  | succ n ih =>
    rw [Finset.sum_range_succ, ih, Nat.factorial_succ, Nat.cast_mul, Real.log_mul (by positivity) (by positivity)]
    push_cast; ring

theorem choose_abs (L : ℕ) {m : ℤ} (h : |m| ≤ L) : (2 * L).choose (L + m).toNat = (2 * L).choose (L + |m|).toNat := by
  rcases abs_cases m with ⟨e, _⟩ | ⟨e, _⟩
  · rw [e]
  · rw [e]
    have : (L + m).toNat ≤ 2 * L := by omega
    rw [← Nat.choose_symm this]
    congr 1; omega

/-- Closed form of the lowest element in terms of the powers computed by `prepare`. -/
theorem startVal {m1 m2 : ℤ} {M : ℕ} (hM : max |m1| |m2| = M) (θ : ℝ) :
    wignerD M m1 m2 θ = (if (prepPows m1 m2 M).2.2 then -1 else 1) * (√((2 * M).choose (M + min |m1| |m2|).toNat : ℝ) *
      (Real.cos (θ / 2) ^ (prepPows m1 m2 M).1.toNat * Real.sin (θ / 2) ^ (prepPows m1 m2 M).2.1.toNat)) := by
  have a1 := le_max_left |m1| |m2|
  have a2 := le_max_right |m1| |m2|
  have hm1 : |m1| ≤ (M : ℤ) := by omega
  have hm2 : |m2| ≤ (M : ℤ) := by omega
  have par : ∀ k : ℤ, 0 ≤ k → ((-1 : ℝ)) ^ k.toNat = if decide (k % 2 = 1) then -1 else 1 := by
    intro k hk
    rcases Int.even_or_odd k with he | ho
    · have : Even k.toNat := by
        obtain ⟨j, hj⟩ := he; exact ⟨j.toNat, by omega⟩
      rw [this.neg_one_pow, if_neg]; simp; obtain ⟨j, hj⟩ := he; omega
    · have : Odd k.toNat := by
        obtain ⟨j, hj⟩ := ho; exact ⟨j.toNat, by omega⟩
      rw [this.neg_one_pow, if_pos]; simp; obtain ⟨j, hj⟩ := ho; omega
  obtain ⟨l1, u1⟩ := abs_le.mp hm1
  obtain ⟨l2, u2⟩ := abs_le.mp hm2
  unfold prepPows
  by_cases hc : (M : ℤ) = |m1|
  · rw [if_pos hc]
    have hmin : min |m1| |m2| = |m2| := min_eq_right (by omega)
    rw [hmin, ← choose_abs M hm2, wignerD_transpose M hm2 hm1]
    by_cases hs : m1 ≥ 0
    · rw [if_pos hs]
      have e : m1 = M := by rw [abs_of_nonneg hs] at hc; exact hc.symm
      rw [e, wignerD_right_top M hm2]
      have : ((-1 : ℝ)) ^ (m2.natAbs + (M : ℤ).natAbs) = if decide ((M - m2) % 2 = 1) then -1 else 1 := by
        rw [← par _ (by omega), Int.natAbs_natCast, Nat.add_comm, ← toNat_parity hm2]
        have : ((-1 : ℝ)) ^ (M + m2).toNat = (-1) ^ (M - m2).toNat := by
          rw [toNat_parity hm2, sub_eq_add_neg, toNat_parity (by rwa [abs_neg]), Int.natAbs_neg]
        exact this
      rw [this]
    · rw [if_neg hs]
      have e : m1 = -M := by rw [abs_of_neg (by omega)] at hc; omega
      rw [e, wignerD_right_bot M hm2]
      have : ((-1 : ℝ)) ^ (m2.natAbs + (-(M : ℤ)).natAbs) * (-1) ^ (M + m2).toNat = 1 := by
        rw [toNat_parity hm2, Int.natAbs_neg, Int.natAbs_natCast, Nat.add_comm m2.natAbs, ← mul_pow]; simp
      simp only [Bool.false_eq_true, if_false]
      rw [mul_assoc ((-1 : ℝ) ^ (M + m2).toNat), ← mul_assoc, this]
  · rw [if_neg hc]
    have hm : (M : ℤ) = |m2| := by
      rcases max_choice |m1| |m2| with h | h <;> omega
    have hmin : min |m1| |m2| = |m1| := min_eq_left (by omega)
    rw [hmin, ← choose_abs M hm1]
    by_cases hs : m2 < 0
    · rw [if_pos hs]
      have e : m2 = -M := by rw [abs_of_neg hs] at hm; omega
      rw [e, wignerD_right_bot M hm1, par _ (by omega)]
      ring
    · rw [if_neg hs]
      have e : m2 = M := by rw [abs_of_nonneg (by omega)] at hm; exact hm.symm
      rw [e, wignerD_right_top M hm1]
      simp

theorem prepPows_nonneg {m1 m2 : ℤ} {M : ℕ} (hM : max |m1| |m2| = M) :
    0 ≤ (prepPows m1 m2 M).1 ∧ 0 ≤ (prepPows m1 m2 M).2.1 := by
  have a1 := le_max_left |m1| |m2|
  have a2 := le_max_right |m1| |m2|
  obtain ⟨l1, u1⟩ := abs_le.mp (by omega : |m1| ≤ (M : ℤ))
  obtain ⟨l2, u2⟩ := abs_le.mp (by omega : |m2| ≤ (M : ℤ))
  unfold prepPows
  split <;> split <;> constructor <;> simp <;> omega

theorem choose_real (M : ℕ) {k : ℤ} (h0 : 0 ≤ k) (h1 : k ≤ M) : (((2 * M).choose (M + k).toNat : ℕ) : ℝ) =
    ((2 * M).factorial : ℝ) / (((M + k).toNat.factorial : ℝ) * ((M - k).toNat.factorial : ℝ)) := by
  have e : (M - k).toNat = 2 * M - (M + k).toNat := by omega
  rw [e, Nat.cast_choose ℝ (by omega)]

theorem prefactor_eq {g : Gen} {m1 m2 : ℤ} (hP : Prepared g m1 m2) {M : ℕ} (hM : max |m1| |m2| = M) :
    g.prefactor = Real.log √((2 * M).choose (M + min |m1| |m2|).toNat : ℝ) := by
  have hmin0 : 0 ≤ min |m1| |m2| := le_min (abs_nonneg _) (abs_nonneg _)
  have hminM : min |m1| |m2| ≤ M := by rw [← hM]; exact min_le_max
  rw [hP.pre, hM, logsum_factorial, logsum_factorial, logsum_factorial, Real.log_sqrt (by positivity),
    choose_real M hmin0 hminM, Real.log_div (by positivity) (by positivity), Real.log_mul (by positivity) (by positivity)]
  rw [show (2 * (M : ℤ)).toNat = 2 * M by omega]
  ring

/-- Splitting of the starting value into mantissa and scale, levels/cxxsupport/wigner.cc:376-381. -/
theorem split_scale {v : ℝ} (h0 : 0 < v) (h1 : v ≤ 1) :
    let logval := Real.log v * (1 / Real.log 2)
    let scale : ℤ := Tod.truncR (logval / 90) - (-4)
    let r := Real.exp (Real.log 2 * (logval - (scale + (-4) : ℤ) * 90))
    scale ≤ 4 ∧ 0 < r ∧ r ≤ 1 ∧ r * wS scale = v := by
  intro logval scale r
  have hl2 : 0 < Real.log 2 := Real.log_pos (by norm_num)
  have hlv : Real.log 2 * logval = Real.log v := by
    show Real.log 2 * (Real.log v * (1 / Real.log 2)) = _
    field_simp
  have hneg : logval ≤ 0 := by
    have : Real.log v ≤ 0 := Real.log_nonpos h0.le h1
    nlinarith
  have hk : logval / 90 ≤ (Tod.truncR (logval / 90) : ℝ) ∧ Tod.truncR (logval / 90) ≤ 0 := by
    unfold Tod.truncR
    split
    · rename_i h
      have : logval = 0 := by
        have : (0:ℝ) ≤ logval := by
          have := mul_nonneg h (by norm_num : (0:ℝ) ≤ 90)
          rwa [div_mul_cancel₀ _ (by norm_num)] at this
        linarith
      rw [this]; simp
    · exact ⟨Int.le_ceil _, Int.ceil_le.mpr (by push_cast; linarith)⟩
  have hs : scale = Tod.truncR (logval / 90) + 4 := by show _ - (-4) = _; ring
  have hr : r = v * Real.exp (-(Real.log 2 * (Tod.truncR (logval / 90) * 90))) := by
    show Real.exp _ = _
    rw [hs, mul_sub, hlv, sub_eq_add_neg, Real.exp_add, Real.exp_log h0]
    push_cast; congr 3; ring
  refine ⟨by omega, Real.exp_pos _, ?_, ?_⟩
  · show Real.exp _ ≤ 1
    rw [Real.exp_le_one_iff]
    have : logval ≤ (scale + (-4) : ℤ) * 90 := by
      rw [hs]; push_cast
      have := hk.1
      rw [div_le_iff₀ (by norm_num)] at this
      linarith
    nlinarith
  · rw [hr, wS, hs]
    have : (2 : ℝ) ^ ((Tod.truncR (logval / 90) + 4 - 4) * 90) = Real.exp (Real.log 2 * (Tod.truncR (logval / 90) * 90)) := by
      rw [← Real.rpow_intCast, Real.rpow_def_of_pos (by norm_num)]
      push_cast; congr 2; ring
    rw [this, mul_assoc, ← Real.exp_add]
    simp

theorem abs_parity {m1 m2 : ℤ} : ((-1 : ℝ)) ^ (m1.natAbs + m2.natAbs) = if decide ((|m1| + |m2|) % 2 = 1) then -1 else 1 := by
  have h1 : |m1| = (m1.natAbs : ℤ) := Int.abs_eq_natAbs m1
  have h2 : |m2| = (m2.natAbs : ℤ) := Int.abs_eq_natAbs m2
  rw [h1, h2]
  rcases Nat.even_or_odd (m1.natAbs + m2.natAbs) with he | ho
  · rw [he.neg_one_pow, if_neg]
    rw [Nat.even_iff] at he
    simp only [decide_eq_true_eq]; omega
  · rw [ho.neg_one_pow, if_pos]
    rw [Nat.odd_iff] at ho
    simp only [decide_eq_true_eq]; omega

/-- Sign and mantissa of the starting value: the signed angle accounts for `thetaflip`. -/
theorem startSigned {m1 m2 : ℤ} {M : ℕ} (hM : max |m1| |m2| = M) (t : ℝ) :
    wignerD M m1 m2 (genAngle t) =
      (if (prepPows m1 m2 M).2.2 ^^ ((adjTheta t).1 && decide ((|m1| + |m2|) % 2 = 1)) then -1 else 1) *
      (√((2 * M).choose (M + min |m1| |m2|).toNat : ℝ) *
      (Real.cos (1 / 2 * (adjTheta t).2) ^ (prepPows m1 m2 M).1.toNat *
        Real.sin (1 / 2 * (adjTheta t).2) ^ (prepPows m1 m2 M).2.1.toNat)) := by
  have a1 := le_max_left |m1| |m2|
  have a2 := le_max_right |m1| |m2|
  have hm1 : |m1| ≤ (M : ℤ) := by omega
  have hm2 : |m2| ≤ (M : ℤ) := by omega
  have hd := startVal hM (adjTheta t).2
  rw [show (adjTheta t).2 / 2 = 1 / 2 * (adjTheta t).2 by ring] at hd
  unfold genAngle
  cases hf : (adjTheta t).1
  · simp only [Bool.false_eq_true, if_false, Bool.false_and, Bool.xor_false]
    exact hd
  · simp only [if_true, Bool.true_and]
    rw [wignerD_neg M hm1 hm2, hd, abs_parity, ← mul_assoc]
    congr 1
    cases (prepPows m1 m2 M).2.2 <;> cases decide ((|m1| + |m2|) % 2 = 1) <;> simp

/-- `calc` (levels/cxxsupport/wigner.cc:369-431) on a prepared generator. -/
theorem wcalc_ok {g : Gen} {lmax : ℕ} {ths : List ℝ} {eps : ℝ} (hT : Tables g lmax ths eps) {m1 m2 : ℤ}
    (hP : Prepared g m1 m2) (h1 : |m1| ≤ lmax) (h2 : |m2| ≤ lmax) {n : ℕ} (hn : n < ths.length) :
    ∃ firstl : ℕ, max |m1| |m2| ≤ firstl ∧ firstl ≤ lmax + 1 ∧
      (∀ l : ℕ, max |m1| |m2| ≤ l → l < firstl → l ≤ lmax → |wignerD l m1 m2 (genAngle ths[n])| ≤ max eps (tiny lmax)) ∧
      (firstl < lmax → eps < |wignerD firstl m1 m2 (genAngle ths[n])|) ∧
      ∀ {res : List ℝ}, res.length = lmax + 1 →
      ∃ res' : List ℝ, wcalc g n res = ok ((firstl : ℤ), res') ∧ res'.length = lmax + 1 ∧
      (∀ l : ℕ, firstl ≤ l → l ≤ lmax → rd res' l = ok (wignerD l m1 m2 (genAngle ths[n]))) ∧
      (∀ l : ℕ, l < firstl → rd res' l = rd res l) := by
  obtain ⟨M, hM⟩ : ∃ M : ℕ, max |m1| |m2| = M := ⟨(max |m1| |m2|).toNat, by
    rw [Int.toNat_of_nonneg (le_trans (abs_nonneg m1) (le_max_left _ _))]⟩
  have hMl : M ≤ g.lmax := by rw [hT.lmax_eq]; have := max_le h1 h2; omega
  set t := ths[n] with ht
  set θ := genAngle t with hθ
  have hseq := seq_of_prepared hP hM hMl (θ := θ) (cth := Real.cos (adjTheta t).2) (by rw [hθ, cos_genAngle])
  obtain ⟨hc, hs⟩ := adjTheta_trig t
  obtain ⟨pc, ps⟩ := prepPows_nonneg hM
  have hpows := hP.pows
  rw [hM] at hpows
  have e1 : g.cosPow = (prepPows m1 m2 M).1 := congrArg Prod.fst hpows
  have e2 : g.sinPow = (prepPows m1 m2 M).2.1 := congrArg (fun p => p.2.1) hpows
  have e3 : g.preMinus = (prepPows m1 m2 M).2.2 := congrArg (fun p => p.2.2) hpows
  have hstart := startSigned hM t
  rw [← hθ] at hstart
  have hchoose : (0:ℝ) < √((2 * M).choose (M + min |m1| |m2|).toNat : ℝ) := by
    apply Real.sqrt_pos.mpr
    have hminM : min |m1| |m2| ≤ M := by rw [← hM]; exact min_le_max
    have := Nat.choose_pos (n := 2 * M) (k := (M + min |m1| |m2|).toNat) (by omega)
    exact_mod_cast this
  set v := √((2 * M).choose (M + min |m1| |m2|).toNat : ℝ) *
      (Real.cos (1 / 2 * (adjTheta t).2) ^ (prepPows m1 m2 M).1.toNat *
        Real.sin (1 / 2 * (adjTheta t).2) ^ (prepPows m1 m2 M).2.1.toNat) with hv
  have hv0 : 0 < v := by rw [hv]; positivity
  set sg : Bool := (prepPows m1 m2 M).2.2 ^^ ((adjTheta t).1 && decide ((|m1| + |m2|) % 2 = 1)) with hsg
  have hv1 : v ≤ 1 := by
    have h := hseq.bound M (le_refl _) hMl
    simp only [hstart] at h
    rw [abs_mul, abs_of_pos hv0] at h
    have : |(if sg then -1 else 1 : ℝ)| = 1 := by split <;> simp
    rw [this, one_mul] at h
    exact h
  have hlog : g.prefactor + Real.log (Real.cos (1 / 2 * (adjTheta t).2)) * g.cosPow
      + Real.log (Real.sin (1 / 2 * (adjTheta t).2)) * g.sinPow = Real.log v := by
    rw [prefactor_eq hP hM, hv, Real.log_mul hchoose.ne' (by positivity), Real.log_mul (by positivity) (by positivity),
      Real.log_pow, Real.log_pow, e1, e2, toNat_real pc, toNat_real ps]
    ring
  obtain ⟨q1, q2, q3, q4⟩ := split_scale hv0 hv1
  have r1 : rd g.costh (n : ℤ) = ok (Real.cos (adjTheta t).2) := by
    rw [hT.costh, rd_nat (by simpa using hn)]; simp [ht]
  have r2 : rd g.lc05 (n : ℤ) = ok (Real.log (Real.cos (1 / 2 * (adjTheta t).2))) := by
    rw [hT.lc05, rd_nat (by simpa using hn)]; simp [ht]
  have r3 : rd g.ls05 (n : ℤ) = ok (Real.log (Real.sin (1 / 2 * (adjTheta t).2))) := by
    rw [hT.ls05, rd_nat (by simpa using hn)]; simp [ht]
  have r4 : rd g.thetaflip (n : ℤ) = ok (adjTheta t).1 := by
    rw [hT.thetaflip, rd_nat (by simpa using hn)]; simp [ht]
  set scale : ℤ := Tod.truncR (Real.log v * (1 / Real.log 2) / 90) - (-4) with hscale
  set r := Real.exp (Real.log 2 * (Real.log v * (1 / Real.log 2) - (scale + (-4) : ℤ) * 90)) with hr
  have hr2 : (if sg then -r else r) * wS scale = wignerD M m1 m2 θ := by
    rw [hstart, ← q4]; split <;> ring
  have habs : |(if sg then -r else r)| ≤ 2 ^ 90 := by
    have : |(if sg then -r else r)| = r := by
      split
      · rw [abs_neg, abs_of_pos q2]
      · rw [abs_of_pos q2]
    rw [this]
    exact q3.trans (by norm_num)
  obtain ⟨l', a1, a2, s', ep, hcase⟩ := phase1_ok hseq (g.lmax + 2) M 0 (if sg then -r else r) scale (le_refl _) hMl
    (by omega) q1 habs (by rw [zero_mul]; exact (prevD_start hM θ).symm) hr2 (fun j ha hb => by omega)
  have ep' : phase1 g.fx (Real.cos (adjTheta t).2) ((g.lmax : ℕ) : ℤ) (g.lmax + 2) (M : ℤ) 0 (if sg = true then -r else r) scale
      = ok (l', a1, a2, s') := ep
  rcases hcase with ⟨hs0, htiny⟩ | ⟨hs0, hs4, L, hL, hML, hLl, f1, f2, hsk⟩
  · refine ⟨g.lmax + 1, by omega, by rw [hT.lmax_eq], fun l ha hb hc => ?_, fun ha => by rw [hT.lmax_eq] at ha; omega,
      fun {res} hres => ⟨res, ?_, hres, fun l ha hb => by rw [hT.lmax_eq] at ha; omega, fun l _ => rfl⟩⟩
    · rw [← hT.lmax_eq]; exact le_max_of_le_right (htiny l (by omega) (by rw [hT.lmax_eq]; exact hc))
    · unfold wcalc
      rw [r1, r2, r3, r4]
      simp only [ok_bind]
      rw [hlog, e3, hP.am1_eq, hP.am2_eq, ← hsg, hP.mhi_eq, hM]
      simp only [← hscale, ← hr, ep', ok_bind]
      rw [if_pos hs0]; push_cast; rfl
  · have hcf : rd g.cf s' = ok (wS s') := by
      rw [hT.cf, rd_map_range hs0 (by push_cast; omega)]
      unfold wS
      rw [Int.toNat_of_nonneg hs0]
    obtain ⟨L2, ep2, b1, b2, b3, b4⟩ := phase2_ok hseq g.eps (g.lmax + 2) L hML hLl (by omega)
    obtain ⟨L3, c1, c2, ep3, d1, d2, d3, d4, d5, d6⟩ := phase3_ok hseq g.eps (l := L2) (by omega) b2
    have hskip : ∀ l : ℕ, (M : ℤ) ≤ l → l < L3 → l ≤ lmax → |wignerD l m1 m2 θ| ≤ max eps (tiny lmax) := by
      intro l ha hb hc
      by_cases hl1 : l < L
      · rw [← hT.lmax_eq]; exact le_max_of_le_right (hsk l (by omega) hl1)
      · rw [← hT.eps_eq]
        apply le_max_of_le_left
        by_cases hl2 : l < L2
        · exact b3 l (by omega) hl2
        · exact d5 l (by omega) hb
    have hfirst : L3 < lmax → eps < |wignerD L3 m1 m2 θ| := by
      intro ha
      rw [← hT.lmax_eq] at ha
      rw [← hT.eps_eq]
      by_cases he : L3 = L2
      · rw [he]; exact d6 he
      · have hb : L2 + 1 < g.lmax := by omega
        exfalso
        have h4 := b4 hb
        have h5 := d5 L2 (le_refl _) (by omega)
        exact absurd h5 (not_le.mpr h4)
    rw [hM]
    refine ⟨L3, by omega, by rw [← hT.lmax_eq]; omega, hskip, hfirst, fun {res} hres => ?_⟩
    unfold wcalc
    rw [r1, r2, r3, r4]
    simp only [ok_bind]
    rw [hlog, e3, hP.am1_eq, hP.am2_eq, ← hsg, hP.mhi_eq, hM]
    simp only [← hscale, ← hr, ep', ok_bind]
    rw [if_neg (by omega)]
    simp only [hcf, ok_bind]
    rw [f1, f2, hL]
    simp only [ep2, ok_bind]
    simp only [ep3, ok_bind]
    by_cases hfin : L3 ≤ g.lmax
    · rw [if_neg (by omega)]
      obtain ⟨g1, g2⟩ := d4 hfin
      have hw := wr_nat (xs := res) (i := L3) c2 (by rw [hres, ← hT.lmax_eq]; omega)
      simp only [hw, ok_bind]
      rw [g1, g2]
      have hlen : (res.set L3 (wignerD L3 m1 m2 θ)).length = g.lmax + 1 := by simp [hres, hT.lmax_eq]
      obtain ⟨L4, res4, ep4, i1, i2, i3, i4, i5⟩ := phase4_ok hseq (g.lmax + 2) L3 (res.set L3 (wignerD L3 m1 m2 θ))
        (by omega) hfin (by omega) hlen
      simp only [ep4, ok_bind]
      obtain ⟨res5, ep5, j1, j2, j3⟩ := phase5_ok hseq (g.lmax + 2) L4 res4 (by omega) i2 (by omega) i3
      simp only [ep5, ok_bind]
      refine ⟨res5, rfl, by rw [j1, hT.lmax_eq], ?_, ?_⟩
      · intro l ha hb
        rw [← hT.lmax_eq] at hb
        by_cases hl4 : L4 < l
        · exact j2 l hl4 hb
        · rw [j3 l (by omega)]
          by_cases hl3 : L3 < l
          · exact i4 l hl3 (by omega)
          · rw [i5 l (by omega), show l = L3 by omega]
            exact rd_set_self _ (by rw [hres, ← hT.lmax_eq]; omega)
      · intro l ha
        rw [j3 l (by omega), i5 l (by omega)]
        exact rd_set_ne _ (by omega)
    · rw [if_pos (by omega)]
      exact ⟨res, rfl, hres, fun l ha hb => by rw [hT.lmax_eq] at hfin; omega, fun l _ => rfl⟩

end Verif.Num
