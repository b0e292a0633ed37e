import Verif.Num.Wigner

/-!
# The Wigner generator: recurrence table and history independence (C38)
-/

namespace Verif.Num
open Verif Res

/-! ## tables fixed by the constructor -/

/-- `1/l`, with `0` for `l = 0` (levels/cxxsupport/wigner.cc:306-307). -/
noncomputable def invl (l : ℕ) : ℝ := if l = 0 then 0 else 1 / (l : ℝ)

/-- The members that the constructor sets and nothing changes. -/
structure Tables (g : Gen) (lmax : ℕ) (thetas : List ℝ) (eps : ℝ) : Prop where
  lmax_eq : g.lmax = lmax
  eps_eq : g.eps = eps
  logsum : g.logsum = (List.range (2 * lmax + 1)).map (fun m : ℕ => ∑ j ∈ Finset.range m, Real.log ((j : ℝ) + 1))
  lc05 : g.lc05 = thetas.map (fun t => Real.log (Real.cos (1 / 2 * (adjTheta t).2)))
  ls05 : g.ls05 = thetas.map (fun t => Real.log (Real.sin (1 / 2 * (adjTheta t).2)))
  flm1 : g.flm1 = (List.range (2 * lmax + 1)).map (fun lm : ℕ => √(1 / ((lm : ℝ) + 1)))
  flm2 : g.flm2 = (List.range (2 * lmax + 1)).map (fun lm : ℕ => √((lm : ℝ) / ((lm : ℝ) + 1)))
  cf : g.cf = (List.range 19).map (fun i : ℕ => (2 : ℝ) ^ (((i : ℤ) - 4) * 90))
  costh : g.costh = thetas.map (fun t => Real.cos (adjTheta t).2)
  xl : g.xl = (List.range (lmax + 1)).map invl
  thetaflip : g.thetaflip = thetas.map (fun t => (adjTheta t).1)
  fxlen : g.fx.length = lmax + 2

theorem rd_map_range {α : Type} {n : ℕ} {f : ℕ → α} {i : ℤ} (h0 : 0 ≤ i) (h1 : i < n) :
    rd ((List.range n).map f) i = ok (f i.toNat) := by
  rw [rd_ok h0 (by simp; omega)]; simp

/-! ## the recurrence table -/

/-- Coefficients of the recurrence from `l` to `l+1`. -/
noncomputable def coefF (m1 m2 : ℤ) (l : ℕ) : F3 :=
  ⟨((l : ℝ) + 1) * (2 * l + 1) * (√(1 / ((l : ℝ) + m1 + 1)) * √(1 / ((l : ℝ) - m1 + 1)) *
      √(1 / ((l : ℝ) + m2 + 1)) * √(1 / ((l : ℝ) - m2 + 1))),
   m1 * m2 * invl l * invl (l + 1),
   (√(((l : ℝ) + m1) / ((l : ℝ) + m1 + 1)) * √(((l : ℝ) - m1) / ((l : ℝ) - m1 + 1)) *
      √(((l : ℝ) + m2) / ((l : ℝ) + m2 + 1)) * √(((l : ℝ) - m2) / ((l : ℝ) - m2 + 1))) * (l + 1) * invl l⟩

theorem toNat_real {z : ℤ} (h : 0 ≤ z) : ((z.toNat : ℕ) : ℝ) = (z : ℝ) := by
  have : ((z.toNat : ℤ) : ℝ) = (z : ℝ) := by rw [Int.toNat_of_nonneg h]
  rw [← this]; norm_cast

theorem fxEntry_ok {g : Gen} {lmax : ℕ} {ths : List ℝ} {eps : ℝ} (hT : Tables g lmax ths eps) {m1 m2 : ℤ} {l : ℕ}
    (h1 : |m1| ≤ l) (h2 : |m2| ≤ l) (hl : l < lmax) : fxEntry g m1 m2 l = ok (coefF m1 m2 l) := by
  obtain ⟨a1, a2⟩ := abs_le.mp h1
  obtain ⟨b1, b2⟩ := abs_le.mp h2
  unfold fxEntry
  rw [hT.flm1, hT.flm2, hT.xl]
  rw [rd_map_range (by omega) (by push_cast; omega), rd_map_range (by omega) (by push_cast; omega),
    rd_map_range (by omega) (by push_cast; omega), rd_map_range (by omega) (by push_cast; omega),
    rd_map_range (by omega) (by push_cast; omega), rd_map_range (by omega) (by push_cast; omega),
    rd_map_range (by omega) (by push_cast; omega), rd_map_range (by omega) (by push_cast; omega),
    rd_map_range (by omega) (by push_cast; omega), rd_map_range (by omega) (by push_cast; omega)]
  simp only [ok_bind]
  rw [toNat_real (by omega : 0 ≤ (l : ℤ) + m1), toNat_real (by omega : 0 ≤ (l : ℤ) - m1),
    toNat_real (by omega : 0 ≤ (l : ℤ) + m2), toNat_real (by omega : 0 ≤ (l : ℤ) - m2)]
  have e1 : ((l : ℤ)).toNat = l := by omega
  have e2 : ((l : ℤ) + 1).toNat = l + 1 := by omega
  rw [e1, e2]
  push_cast
  rfl

theorem sqrt_inv_pair {l : ℕ} {m : ℤ} (h : |m| ≤ l) :
    √(1 / ((l : ℝ) + m + 1)) * √(1 / ((l : ℝ) - m + 1)) = 1 / √(((l : ℝ) + 1) ^ 2 - (m : ℝ) ^ 2) := by
  obtain ⟨a1, a2⟩ := abs_le.mp h
  have q1 : (0:ℝ) ≤ (l : ℝ) + m := by exact_mod_cast (by omega : (0:ℤ) ≤ l + m)
  have q2 : (0:ℝ) ≤ (l : ℝ) - m := by exact_mod_cast (by omega : (0:ℤ) ≤ l - m)
  rw [← Real.sqrt_mul (by positivity), ← Real.sqrt_one, ← Real.sqrt_div (by norm_num), Real.sqrt_one]
  congr 1
  rw [div_mul_div_comm]
  congr 1 <;> ring

theorem sqrt_frac_pair {l : ℕ} {m : ℤ} (h : |m| ≤ l) :
    √(((l : ℝ) + m) / ((l : ℝ) + m + 1)) * √(((l : ℝ) - m) / ((l : ℝ) - m + 1)) =
      √((l : ℝ) ^ 2 - (m : ℝ) ^ 2) / √(((l : ℝ) + 1) ^ 2 - (m : ℝ) ^ 2) := by
  obtain ⟨a1, a2⟩ := abs_le.mp h
  have q1 : (0:ℝ) ≤ (l : ℝ) + m := by exact_mod_cast (by omega : (0:ℤ) ≤ l + m)
  have q2 : (0:ℝ) ≤ (l : ℝ) - m := by exact_mod_cast (by omega : (0:ℤ) ≤ l - m)
  have q3 : 0 ≤ (l : ℝ) ^ 2 - (m : ℝ) ^ 2 := by
    have : (l : ℝ) ^ 2 - (m : ℝ) ^ 2 = ((l : ℝ) + m) * ((l : ℝ) - m) := by ring
    rw [this]; positivity
  rw [← Real.sqrt_mul (by positivity), ← Real.sqrt_div q3]
  congr 1
  rw [div_mul_div_comm]
  congr 1 <;> ring

theorem coefF_f0 {m1 m2 : ℤ} {l : ℕ} (h1 : |m1| ≤ l) (h2 : |m2| ≤ l) : (coefF m1 m2 l).f0 =
    (l + 1) * (2 * l + 1) / (√(((l : ℝ) + 1) ^ 2 - (m1 : ℝ) ^ 2) * √(((l : ℝ) + 1) ^ 2 - (m2 : ℝ) ^ 2)) := by
  show ((l : ℝ) + 1) * (2 * l + 1) * (√(1 / ((l : ℝ) + m1 + 1)) * √(1 / ((l : ℝ) - m1 + 1)) *
      √(1 / ((l : ℝ) + m2 + 1)) * √(1 / ((l : ℝ) - m2 + 1))) = _
  rw [mul_assoc (√(1 / ((l : ℝ) + m1 + 1)) * √(1 / ((l : ℝ) - m1 + 1))), sqrt_inv_pair h1, sqrt_inv_pair h2,
    div_mul_div_comm]
  ring

theorem coefF_f2 {m1 m2 : ℤ} {l : ℕ} (h1 : |m1| ≤ l) (h2 : |m2| ≤ l) : (coefF m1 m2 l).f2 =
    (√((l : ℝ) ^ 2 - (m1 : ℝ) ^ 2) * √((l : ℝ) ^ 2 - (m2 : ℝ) ^ 2)) /
      (√(((l : ℝ) + 1) ^ 2 - (m1 : ℝ) ^ 2) * √(((l : ℝ) + 1) ^ 2 - (m2 : ℝ) ^ 2)) * (l + 1) * invl l := by
  show (√(((l : ℝ) + m1) / ((l : ℝ) + m1 + 1)) * √(((l : ℝ) - m1) / ((l : ℝ) - m1 + 1)) *
      √(((l : ℝ) + m2) / ((l : ℝ) + m2 + 1)) * √(((l : ℝ) - m2) / ((l : ℝ) - m2 + 1))) * (l + 1) * invl l = _
  rw [mul_assoc (√(((l : ℝ) + m1) / ((l : ℝ) + m1 + 1)) * √(((l : ℝ) - m1) / ((l : ℝ) - m1 + 1))), sqrt_frac_pair h1,
    sqrt_frac_pair h2, div_mul_div_comm]

/-- Value preceding `d^l` in the recurrence: `0` at the lowest degree. -/
noncomputable def prevD (m1 m2 : ℤ) (l : ℕ) (θ : ℝ) : ℝ :=
  if (l : ℤ) = max |m1| |m2| then 0 else wignerD (l - 1) m1 m2 θ

/-- The recurrence with the coefficients of the program. -/
theorem coefF_rec {m1 m2 : ℤ} {l : ℕ} (h1 : |m1| ≤ l) (h2 : |m2| ≤ l) (θ : ℝ) :
    (Real.cos θ - (coefF m1 m2 l).f1) * (coefF m1 m2 l).f0 * wignerD l m1 m2 θ
      - (coefF m1 m2 l).f2 * prevD m1 m2 l θ = wignerD (l + 1) m1 m2 θ := by
  have hf1 : (coefF m1 m2 l).f1 = m1 * m2 * invl l * invl (l + 1) := rfl
  rcases Nat.eq_zero_or_pos l with hl0 | hlp
  · subst hl0
    have e1 : m1 = 0 := abs_eq_zero.mp (le_antisymm (by simpa using h1) (abs_nonneg _))
    have e2 : m2 = 0 := abs_eq_zero.mp (le_antisymm (by simpa using h2) (abs_nonneg _))
    subst e1; subst e2
    rw [coefF_f0 h1 h2, hf1, (wignerD_zero θ).1, (wignerD_zero θ).2]
    simp [prevD]
  have hlr : (0:ℝ) < l := by exact_mod_cast hlp
  have hrec := wignerD_rec l h1 h2 θ
  have hprev : (√((l : ℝ) ^ 2 - (m1 : ℝ) ^ 2) * √((l : ℝ) ^ 2 - (m2 : ℝ) ^ 2)) * wignerD (l - 1) m1 m2 θ =
      (√((l : ℝ) ^ 2 - (m1 : ℝ) ^ 2) * √((l : ℝ) ^ 2 - (m2 : ℝ) ^ 2)) * prevD m1 m2 l θ := by
    unfold prevD
    split
    · rename_i he
      rcases max_choice |m1| |m2| with hc | hc
      · rw [hc] at he; rw [sq_sub_sq_zero he.symm]; simp
      · rw [hc] at he; rw [sq_sub_sq_zero he.symm]; simp
    · rfl
  rw [mul_assoc ((l : ℝ) + 1), hprev] at hrec
  rw [coefF_f0 h1 h2, coefF_f2 h1 h2, hf1]
  have hR1 : √(((l : ℝ) + 1) ^ 2 - (m1 : ℝ) ^ 2) ≠ 0 := (Real.sqrt_pos.mpr (sq_sub_sq_pos h1)).ne'
  have hR2 : √(((l : ℝ) + 1) ^ 2 - (m2 : ℝ) ^ 2) ≠ 0 := (Real.sqrt_pos.mpr (sq_sub_sq_pos h2)).ne'
  have i1 : invl l = 1 / (l : ℝ) := if_neg (by omega)
  have i2 : invl (l + 1) = 1 / ((l : ℝ) + 1) := by unfold invl; rw [if_neg (by omega)]; push_cast; rfl
  rw [i1, i2]
  generalize √(((l : ℝ) + 1) ^ 2 - (m1 : ℝ) ^ 2) = R1 at *
  generalize √(((l : ℝ) + 1) ^ 2 - (m2 : ℝ) ^ 2) = R2 at *
  generalize √((l : ℝ) ^ 2 - (m1 : ℝ) ^ 2) = r1 at *
  generalize √((l : ℝ) ^ 2 - (m2 : ℝ) ^ 2) = r2 at *
  have hl1 : (l : ℝ) + 1 ≠ 0 := by positivity
  have hl0 := hlr.ne'
  have : wignerD (l + 1) m1 m2 θ = ((2 * l + 1) * (l * (l + 1) * Real.cos θ - m1 * m2) * wignerD l m1 m2 θ
      - (l + 1) * (r1 * r2 * prevD m1 m2 l θ)) / (l * (R1 * R2)) := by
    rw [eq_div_iff (by positivity)]; linarith
  rw [this]
  field_simp

/-! ## prepare (C38) -/

/-- The generator is prepared for `(m1, m2)`: every member that `calc` reads has the value that depends on
`(m1, m2)` (and the constructor arguments) only. -/
structure Prepared (g : Gen) (m1 m2 : ℤ) : Prop where
  m1_eq : g.m1 = m1
  m2_eq : g.m2 = m2
  am1_eq : g.am1 = |m1|
  am2_eq : g.am2 = |m2|
  mlo_eq : g.mlo = min |m1| |m2|
  mhi_eq : g.mhi = max |m1| |m2|
  fx : ∀ l : ℕ, max |m1| |m2| ≤ l → l < g.lmax → rd g.fx ((l : ℤ) + 1) = ok (coefF m1 m2 l)
  pre : g.prefactor = 1 / 2 * ((∑ j ∈ Finset.range (2 * max |m1| |m2|).toNat, Real.log ((j : ℝ) + 1))
    - (∑ j ∈ Finset.range (max |m1| |m2| + min |m1| |m2|).toNat, Real.log ((j : ℝ) + 1))
    - (∑ j ∈ Finset.range (max |m1| |m2| - min |m1| |m2|).toNat, Real.log ((j : ℝ) + 1)))
  pows : (g.cosPow, g.sinPow, g.preMinus) = prepPows m1 m2 (max |m1| |m2|)

theorem coefF_sign {m1 m2 n1 n2 : ℤ} (hlo : min |m1| |m2| = min |n1| |n2|) (hhi : max |m1| |m2| = max |n1| |n2|)
    {l : ℕ} (h1 : |m1| ≤ l) (h2 : |m2| ≤ l) (h3 : |n1| ≤ l) (h4 : |n2| ≤ l) :
    (coefF m1 m2 l).f0 = (coefF n1 n2 l).f0 ∧ (coefF m1 m2 l).f2 = (coefF n1 n2 l).f2 ∧
    (m1 * m2 = n1 * n2 → (coefF m1 m2 l).f1 = (coefF n1 n2 l).f1) ∧
    (m1 * m2 ≠ n1 * n2 → -(coefF m1 m2 l).f1 = (coefF n1 n2 l).f1) := by
  have hcase : (|m1| = |n1| ∧ |m2| = |n2|) ∨ (|m1| = |n2| ∧ |m2| = |n1|) := by
    rcases le_total |m1| |m2| with a | a <;> rcases le_total |n1| |n2| with b | b <;>
      simp only [min_eq_left, min_eq_right, max_eq_left, max_eq_right, a, b] at hlo hhi <;> omega
  have hsq : ∀ a b : ℤ, |a| = |b| → (a : ℝ) ^ 2 = (b : ℝ) ^ 2 := by
    intro a b h
    have : ((|a| : ℤ) : ℝ) = ((|b| : ℤ) : ℝ) := by rw [h]
    rw [Int.cast_abs, Int.cast_abs] at this
    rw [← sq_abs, this, sq_abs]
  have hprod : m1 * m2 = n1 * n2 ∨ m1 * m2 = -(n1 * n2) := by
    rw [← abs_eq_abs, abs_mul, abs_mul]
    rcases hcase with ⟨a, b⟩ | ⟨a, b⟩ <;> rw [a, b]
    ring
  have hf1 : ∀ a b : ℤ, (coefF a b l).f1 = ((a * b : ℤ) : ℝ) * (invl l * invl (l + 1)) := by
    intro a b
    show (a : ℝ) * b * invl l * invl (l + 1) = _
    push_cast; ring
  refine ⟨?_, ?_, fun h => by rw [hf1, hf1, h], fun h => ?_⟩
  · rw [coefF_f0 h1 h2, coefF_f0 h3 h4]
    rcases hcase with ⟨a, b⟩ | ⟨a, b⟩
    · rw [hsq _ _ a, hsq _ _ b]
    · rw [hsq _ _ a, hsq _ _ b, mul_comm (√(((l : ℝ) + 1) ^ 2 - (n1 : ℝ) ^ 2))]
  · rw [coefF_f2 h1 h2, coefF_f2 h3 h4]
    rcases hcase with ⟨a, b⟩ | ⟨a, b⟩
    · rw [hsq _ _ a, hsq _ _ b]
    · rw [hsq _ _ a, hsq _ _ b, mul_comm (√(((l : ℝ) + 1) ^ 2 - (n1 : ℝ) ^ 2)),
        mul_comm (√((l : ℝ) ^ 2 - (n1 : ℝ) ^ 2))]
  · rw [hf1, hf1]
    rcases hprod with e | e
    · exact absurd e h
    · rw [e]; push_cast; ring

theorem mulI_ok {ovf : Res ℤ} {L : ℕ} (hL : L < 46341) {a b : ℤ} (ha : |a| ≤ L) (hb : |b| ≤ L) :
    mulI ovf a b = ok (a * b) := by
  unfold mulI
  have h : |a * b| ≤ 46340 * 46340 := by
    rw [abs_mul]
    exact mul_le_mul (by omega) (by omega) (abs_nonneg _) (by norm_num)
  have := abs_le.mp h
  rw [if_pos (by constructor <;> omega)]

/-- `g` was created by the constructor and has been prepared for `(m1, m2)`, or not at all. -/
def FreshOr (g : Gen) (lmax : ℕ) : Prop :=
  (g.m1 = -1234567890 ∧ g.m2 = -1234567890 ∧ g.mhi = -1234567890 ∧ g.mlo = -1234567890) ∨
  ∃ n1 n2 : ℤ, |n1| ≤ lmax ∧ |n2| ≤ lmax ∧ Prepared g n1 n2

/-- `prepare` succeeds and leaves the generator prepared for its arguments, whatever it was prepared for before.
`lmax < 46341` avoids overflow in `m1*m2`; `ovf = ok v`: whatever the overflowing product of the two initial
sentinels evaluates to. -/
theorem prepare_ok {ovf : Res ℤ} {v : ℤ} (hovf : ovf = ok v) {g : Gen} {lmax : ℕ} {ths : List ℝ} {eps : ℝ}
    (hL : lmax < 46341) (hT : Tables g lmax ths eps) (hg : FreshOr g lmax) {m1 m2 : ℤ} (h1 : |m1| ≤ lmax) (h2 : |m2| ≤ lmax) :
    ∃ g', prepare ovf g m1 m2 = ok g' ∧ Tables g' lmax ths eps ∧ Prepared g' m1 m2 := by
  unfold prepare
  have habs1 := abs_nonneg m1
  have habs2 := abs_nonneg m2
  by_cases hsame : m1 = g.m1 ∧ m2 = g.m2
  · rw [if_pos hsame]
    rcases hg with ⟨e1, e2, _⟩ | ⟨n1, n2, hn1, hn2, hP⟩
    · exfalso
      rw [e1] at hsame
      have := hsame.1
      rw [this] at h1; norm_num at h1; omega
    · have e1 := hP.m1_eq; have e2 := hP.m2_eq
      obtain ⟨r1, r2⟩ := hsame
      rw [← r1] at e1; rw [← r2] at e2
      subst e1; subst e2
      exact ⟨g, rfl, hT, hP⟩
  rw [if_neg hsame]
  have hp0 : ∃ p0, mulI ovf g.m1 g.m2 = ok p0 ∧ ((∃ n1 n2 : ℤ, |n1| ≤ lmax ∧ |n2| ≤ lmax ∧ Prepared g n1 n2) → p0 = g.m1 * g.m2) := by
    rcases hg with ⟨e1, e2, e3, _⟩ | ⟨n1, n2, hn1, hn2, hP⟩
    · refine ⟨v, ?_, ?_⟩
      · rw [e1, e2]; unfold mulI; rw [if_neg (by norm_num), hovf]
      · rintro ⟨n1, n2, _, _, hP⟩
        have := hP.mhi_eq
        have := abs_nonneg n1
        have := le_max_left |n1| |n2|
        omega
    · refine ⟨g.m1 * g.m2, ?_, fun _ => rfl⟩
      rw [hP.m1_eq, hP.m2_eq]; exact mulI_ok hL hn1 hn2
  obtain ⟨p0, hp0, hp0'⟩ := hp0
  rw [hp0, mulI_ok hL h1 h2]
  simp only [ok_bind]
  set mhi := max |m1| |m2| with hmhi
  set mlo := min |m1| |m2| with hmlo
  have hmhi0 : 0 ≤ mhi := le_trans habs1 (le_max_left _ _)
  have hmhil : mhi ≤ lmax := max_le h1 h2
  have hmlo0 : 0 ≤ mlo := le_min habs1 habs2
  have hmm : mlo ≤ mhi := min_le_max
  have hlm := hT.lmax_eq
  -- the table
  have hfx : ∃ fx', prepTable g m1 m2 mhi (decide (g.mhi = mhi ∧ g.mlo = mlo)) (decide (p0 ≠ m1 * m2)) = ok fx' ∧
      fx'.length = lmax + 2 ∧
      ∀ l : ℕ, mhi ≤ l → l < lmax → rd fx' ((l : ℤ) + 1) = ok (coefF m1 m2 l) := by
    unfold prepTable
    by_cases hsim : g.mhi = mhi ∧ g.mlo = mlo
    · rw [if_pos (by simpa using hsim)]
      rcases hg with ⟨_, _, e3, _⟩ | ⟨n1, n2, hn1, hn2, hP⟩
      · omega
      have hp := hp0' ⟨n1, n2, hn1, hn2, hP⟩
      have hhi : max |n1| |n2| = mhi := by rw [← hP.mhi_eq]; exact hsim.1
      have hlo : min |n1| |n2| = mlo := by rw [← hP.mlo_eq]; exact hsim.2
      have hle : ∀ l : ℕ, mhi ≤ l → |n1| ≤ l ∧ |n2| ≤ l ∧ |m1| ≤ l ∧ |m2| ≤ l := by
        intro l hl
        have a1 := le_max_left |n1| |n2|; have a2 := le_max_right |n1| |n2|
        have a3 := le_max_left |m1| |m2|; have a4 := le_max_right |m1| |m2|
        omega
      by_cases hflip : p0 ≠ m1 * m2
      · rw [if_pos (by simpa using hflip)]
        rw [hp, hP.m1_eq, hP.m2_eq] at hflip
        obtain ⟨t, ht, hI⟩ := forN_inv (g.lmax - mhi).toNat
          (fun i fx => do
            let f ← rd fx (mhi + i + 1)
            wr fx (mhi + i + 1) (⟨f.f0, -f.f1, f.f2⟩ : F3)) g.fx
          (fun i fx => fx.length = lmax + 2 ∧ ∀ l : ℕ, mhi ≤ l → l < lmax →
            rd fx ((l : ℤ) + 1) = ok (if (l : ℤ) < mhi + i then coefF m1 m2 l else coefF n1 n2 l))
          (by
            refine ⟨hT.fxlen, fun l hl hl' => ?_⟩
            rw [if_neg (by push_cast; omega)]
            exact hP.fx l (by omega) (by omega))
          (by
            rintro i fx hi ⟨hlen, hfx⟩
            have hk := hfx (mhi + i).toNat (by omega) (by omega)
            have ek : (((mhi + i).toNat : ℕ) : ℤ) = mhi + i := by omega
            rw [ek, if_neg (by omega)] at hk
            simp only [hk, ok_bind]
            rw [wr_ok _ (by omega) (by omega)]
            refine ⟨_, rfl, by simpa using hlen, fun l hl hl' => ?_⟩
            obtain ⟨q1, q2, q3, q4⟩ := hle l hl
            by_cases hli : (l : ℤ) = mhi + i
            · have hidx : (mhi + (i : ℤ) + 1).toNat = l + 1 := by omega
              rw [if_pos (by push_cast; omega), hidx, rd_ok (by omega) (by simp; omega)]
              have hel : (((l : ℤ) + 1)).toNat = l + 1 := by omega
              simp only [hel, List.getElem_set_self]
              obtain ⟨c1, c2, c3, c4⟩ := coefF_sign (m1 := n1) (m2 := n2) (n1 := m1) (n2 := m2) (by rw [hlo]) (by rw [hhi]) q1 q2 q3 q4
              have hll : (mhi + (i : ℤ)).toNat = l := by omega
              rw [hll, c1, c2, c4 hflip]
            · have := hfx l hl hl'
              have hcond : ((l : ℤ) < mhi + ((i + 1 : ℕ) : ℤ)) ↔ ((l : ℤ) < mhi + i) := by push_cast; omega
              simp only [hcond]
              rw [← this]
              have hne : (mhi + (i : ℤ) + 1).toNat ≠ ((l : ℤ) + 1).toNat := by omega
              rw [rd_ok (by omega) (by simp; omega), rd_ok (by omega) (by omega), List.getElem_set_ne hne])
        refine ⟨t, ht, hI.1, fun l hl hl' => ?_⟩
        rw [hI.2 l hl hl', if_pos (by omega)]
      · rw [if_neg (by simpa using hflip)]
        rw [not_ne_iff, hp, hP.m1_eq, hP.m2_eq] at hflip
        refine ⟨g.fx, rfl, hT.fxlen, fun l hl hl' => ?_⟩
        obtain ⟨q1, q2, q3, q4⟩ := hle l hl
        obtain ⟨c1, c2, c3, c4⟩ := coefF_sign (m1 := n1) (m2 := n2) (n1 := m1) (n2 := m2) (by rw [hlo]) (by rw [hhi]) q1 q2 q3 q4
        rw [hP.fx l (by omega) (by omega)]
        have e : ∀ a b : F3, a.f0 = b.f0 → a.f1 = b.f1 → a.f2 = b.f2 → a = b := by
          rintro ⟨_, _, _⟩ ⟨_, _, _⟩ h1 h2 h3; simp_all
        rw [e _ _ c1 (c3 hflip) c2]
    · rw [if_neg (by simpa using hsim)]
      obtain ⟨t, ht, hI⟩ := forN_inv (g.lmax - mhi).toNat
        (fun i fx => do
          let f ← fxEntry g m1 m2 (mhi + i)
          wr fx (mhi + i + 1) f) g.fx
        (fun i fx => fx.length = lmax + 2 ∧ ∀ l : ℕ, mhi ≤ l → (l : ℤ) < mhi + i → rd fx ((l : ℤ) + 1) = ok (coefF m1 m2 l))
        ⟨hT.fxlen, fun l hl hl' => by push_cast at hl'; omega⟩
        (by
          rintro i fx hi ⟨hlen, hfx⟩
          have ek : (((mhi + i).toNat : ℕ) : ℤ) = mhi + i := by omega
          have a3 := le_max_left |m1| |m2|; have a4 := le_max_right |m1| |m2|
          have hk := fxEntry_ok hT (m1 := m1) (m2 := m2) (l := (mhi + i).toNat) (by omega) (by omega) (by omega)
          rw [ek] at hk
          simp only [hk, ok_bind]
          rw [wr_ok _ (by omega) (by omega)]
          refine ⟨_, rfl, by simpa using hlen, fun l hl hl' => ?_⟩
          by_cases hli : (l : ℤ) = mhi + i
          · have hidx : (mhi + (i : ℤ) + 1).toNat = l + 1 := by omega
            rw [hidx, rd_ok (by omega) (by simp; omega)]
            have hel : (((l : ℤ) + 1)).toNat = l + 1 := by omega
            simp only [hel, List.getElem_set_self]
            rw [show (mhi + (i : ℤ)).toNat = l by omega]
          · rw [← hfx l hl (by push_cast at hl'; omega)]
            have hne : (mhi + (i : ℤ) + 1).toNat ≠ ((l : ℤ) + 1).toNat := by omega
            rw [rd_ok (by omega) (by simp; push_cast at hl'; omega), rd_ok (by omega) (by push_cast at hl'; omega), List.getElem_set_ne hne])
      exact ⟨t, ht, hI.1, fun l hl hl' => hI.2 l hl (by omega)⟩
  obtain ⟨fx', hfx', hlen', hfxv⟩ := hfx
  rw [hfx']
  simp only [ok_bind]
  rw [hT.logsum, rd_map_range (by omega) (by push_cast; omega), rd_map_range (by omega) (by push_cast; omega),
    rd_map_range (by omega) (by push_cast; omega)]
  simp only [ok_bind]
  refine ⟨_, rfl, ⟨hT.lmax_eq, hT.eps_eq, ?_, hT.lc05, hT.ls05, hT.flm1, hT.flm2, hT.cf, hT.costh, hT.xl, hT.thetaflip, hlen'⟩,
    ⟨rfl, rfl, rfl, rfl, rfl, rfl, ?_, rfl, rfl⟩⟩
  · rfl
  · intro l hl hl'
    exact hfxv l hl (by simpa [hT.lmax_eq] using hl')

end Verif.Num
