import Verif.Tod.Float
import Mathlib.Data.Int.Log
import Mathlib.Algebra.Order.Round
import Mathlib.Tactic.LinearCombination

/-!
# A concrete rounding: binary64 with unbounded exponent

The theorems about rounded arithmetic (`Verif/Tod/Float.lean`, `C42_fmodulo_rounded`, `C42_isqrt`) are stated for every
rounding function with the properties listed in `Rounding`.  Here these properties are proved of the rounding of IEEE 754
binary64: 53 significant bits, round to nearest with ties to even.  Simplification: the exponent is unbounded (no overflow, no
subnormal numbers).  The significand is rounded with any function `q` that is monotone and keeps integers, so directed rounding
modes are covered too.
-/

namespace Verif.Double

open Verif.Tod

/-- A rounding of the significand to an integer. -/
structure IntRound (q : ℝ → ℤ) : Prop where
  mono : Monotone q
  int : ∀ i : ℤ, q i = i

/-- Weight of the last bit of the significand of `x`. -/
noncomputable def ulp (x : ℝ) : ℝ := 2 ^ (Int.log 2 |x| - 52)

/-- Rounding to 53 significant bits. -/
noncomputable def rn (q : ℝ → ℤ) (x : ℝ) : ℝ := (q (x / ulp x) : ℝ) * ulp x

open Classical in
/-- Round to nearest, ties to even. -/
noncomputable def nearestEven (x : ℝ) : ℤ :=
  if Int.fract x < 1 / 2 then ⌊x⌋
  else if 1 / 2 < Int.fract x then ⌊x⌋ + 1
  else if 2 ∣ ⌊x⌋ then ⌊x⌋ else ⌊x⌋ + 1

theorem nearestEven_near (x : ℝ) : |(nearestEven x : ℝ) - x| ≤ 1 / 2 := by
  have h := Int.floor_add_fract x
  have h0 := Int.fract_nonneg x
  have h1 := Int.fract_lt_one x
  unfold nearestEven
  rw [abs_le]
  split_ifs with a b c <;> push_cast <;> constructor <;> linarith

theorem nearestEven_floor (x : ℝ) : ⌊x⌋ ≤ nearestEven x ∧ nearestEven x ≤ ⌊x⌋ + 1 := by
  unfold nearestEven
  split_ifs <;> constructor <;> omega

theorem intRound_nearestEven : IntRound nearestEven where
  int i := by unfold nearestEven; simp
  mono := by
    intro x y hxy
    have hf : ⌊x⌋ ≤ ⌊y⌋ := Int.floor_le_floor hxy
    rcases hf.lt_or_eq with h | h
    · have := (nearestEven_floor x).2
      have := (nearestEven_floor y).1
      omega
    · have hx := Int.floor_add_fract x
      have hy := Int.floor_add_fract y
      have hfr : Int.fract x ≤ Int.fract y := by
        have : (⌊x⌋ : ℝ) = ⌊y⌋ := by rw [h]
        linarith
      unfold nearestEven
      rw [h]
      split_ifs <;> first | omega | (exfalso; linarith)

variable {q : ℝ → ℤ}

theorem ulp_pos (x : ℝ) : 0 < ulp x := by unfold ulp; positivity

theorem rn_zero (hq : IntRound q) : rn q 0 = 0 := by
  unfold rn
  have := hq.int 0
  rw [Int.cast_zero] at this
  rw [zero_div, this]; simp

theorem log_le {x : ℝ} (h : x ≠ 0) : (2 : ℝ) ^ Int.log 2 |x| ≤ |x| := by
  have := Int.zpow_log_le_self (b := 2) (by norm_num) (abs_pos.mpr h)
  exact_mod_cast this

theorem lt_log (x : ℝ) : |x| < (2 : ℝ) ^ (Int.log 2 |x| + 1) := by
  have := Int.lt_zpow_succ_log_self (b := 2) (by norm_num) |x|
  exact_mod_cast this

/-- Numbers `k 2^j` with `|k| ≤ 2^53` are representable. -/
theorem rn_exact (hq : IntRound q) (k j : ℤ) (hk : |k| ≤ 2 ^ 53) : rn q ((k : ℝ) * 2 ^ j) = (k : ℝ) * 2 ^ j := by
  by_cases h0 : k = 0
  · subst h0; rw [Int.cast_zero, zero_mul, rn_zero hq]
  set x : ℝ := (k : ℝ) * 2 ^ j with hx
  have hxne : x ≠ 0 := mul_ne_zero (by exact_mod_cast h0) (by positivity)
  have habs : |x| = |(k : ℝ)| * 2 ^ j := by rw [hx, abs_mul, abs_of_pos (a := (2 : ℝ) ^ j) (by positivity)]
  have hkr : |(k : ℝ)| ≤ 2 ^ (53 : ℤ) := by
    have : ((|k| : ℤ) : ℝ) ≤ ((2 ^ 53 : ℤ) : ℝ) := by exact_mod_cast hk
    rw [Int.cast_abs] at this
    refine this.trans (le_of_eq ?_)
    norm_num
  have hle := log_le hxne
  set e := Int.log 2 |x| with he
  have hej : e ≤ j + 53 := by
    have h1 : (2 : ℝ) ^ e ≤ 2 ^ (53 + j) := by
      rw [zpow_add₀ (by norm_num)]
      refine hle.trans ?_
      rw [habs]
      exact mul_le_mul_of_nonneg_right hkr (by positivity)
    have := (zpow_le_zpow_iff_right₀ (by norm_num : (1 : ℝ) < 2)).mp h1
    omega
  have hint : ∃ i : ℤ, x / ulp x = i := by
    have hd : x / ulp x = (k : ℝ) * 2 ^ (j - (e - 52)) := by
      unfold ulp
      rw [← he, hx, mul_div_assoc, ← zpow_sub₀ (by norm_num)]
    rcases (show e - 52 ≤ j ∨ e = j + 53 by omega) with h | h
    · refine ⟨k * 2 ^ (j - (e - 52)).toNat, ?_⟩
      rw [hd]
      push_cast
      congr 1
      rw [← zpow_natCast, Int.toNat_of_nonneg (by omega)]
    · have hk2 : |(k : ℝ)| = 2 ^ (53 : ℤ) := by
        apply le_antisymm hkr
        rw [habs, h, zpow_add₀ (by norm_num), mul_comm] at hle
        exact le_of_mul_le_mul_right hle (by positivity)
      rw [hd, h]
      have e1 : j - (j + 53 - 52) = -1 := by ring
      rw [e1]
      rcases abs_cases (k : ℝ) with ⟨h1, _⟩ | ⟨h1, _⟩
      · refine ⟨2 ^ 52, ?_⟩
        rw [← h1, hk2]; norm_num
      · refine ⟨-2 ^ 52, ?_⟩
        have : (k : ℝ) = -(2 ^ (53 : ℤ)) := by linarith
        rw [this]; norm_num
  obtain ⟨i, hi⟩ := hint
  unfold rn
  rw [hi, hq.int, ← hi, div_mul_cancel₀ _ (ulp_pos x).ne']

theorem rn_pos_bounds (hq : IntRound q) {x : ℝ} (h : 0 < x) :
    (2 : ℝ) ^ Int.log 2 |x| ≤ rn q x ∧ rn q x ≤ 2 ^ (Int.log 2 |x| + 1) := by
  have h1 := log_le h.ne'
  have h2 := (lt_log x).le
  rw [abs_of_pos h] at h1 h2
  rw [abs_of_pos h]
  have hu := ulp_pos x
  have eu : ulp x = 2 ^ (Int.log 2 x - 52) := by unfold ulp; rw [abs_of_pos h]
  have a1 : ((2 ^ 52 : ℤ) : ℝ) ≤ x / ulp x := by
    rw [le_div_iff₀ hu, eu]
    refine le_trans (le_of_eq ?_) h1
    rw [zpow_sub₀ (by norm_num)]; norm_num; field_simp
  have a2 : x / ulp x ≤ ((2 ^ 53 : ℤ) : ℝ) := by
    rw [div_le_iff₀ hu, eu]
    refine le_trans h2 (le_of_eq ?_)
    rw [zpow_sub₀ (by norm_num), zpow_add₀ (by norm_num)]; norm_num; field_simp; norm_num
  have b1 := hq.mono a1
  have b2 := hq.mono a2
  rw [hq.int] at b1 b2
  have c1 : (2 ^ 52 : ℝ) ≤ (q (x / ulp x) : ℝ) := by exact_mod_cast b1
  have c2 : (q (x / ulp x) : ℝ) ≤ 2 ^ 53 := by exact_mod_cast b2
  unfold rn
  constructor
  · refine le_trans (le_of_eq ?_) (mul_le_mul_of_nonneg_right c1 hu.le)
    rw [eu, zpow_sub₀ (by norm_num)]; norm_num; field_simp
  · refine le_trans (mul_le_mul_of_nonneg_right c2 hu.le) (le_of_eq ?_)
    rw [eu, zpow_sub₀ (by norm_num), zpow_add₀ (by norm_num)]; norm_num; field_simp; norm_num

theorem rn_neg_bounds (hq : IntRound q) {x : ℝ} (h : x < 0) :
    -(2 : ℝ) ^ (Int.log 2 |x| + 1) ≤ rn q x ∧ rn q x ≤ -2 ^ Int.log 2 |x| := by
  have h1 := log_le h.ne
  have h2 := (lt_log x).le
  have hu := ulp_pos x
  have hx : |x| = -x := abs_of_neg h
  have eu : ulp x = 2 ^ (Int.log 2 |x| - 52) := rfl
  rw [← neg_neg x, ← hx]
  generalize hL : Int.log 2 |x| = L at *
  have a1 : -|x| / ulp x ≤ ((-2 ^ 52 : ℤ) : ℝ) := by
    rw [div_le_iff₀ hu, eu]
    have : ((-2 ^ 52 : ℤ) : ℝ) * 2 ^ (L - 52) = -2 ^ L := by
      rw [zpow_sub₀ (by norm_num)]; norm_num; field_simp
    rw [this]; linarith
  have a2 : ((-2 ^ 53 : ℤ) : ℝ) ≤ -|x| / ulp x := by
    rw [le_div_iff₀ hu, eu]
    have : ((-2 ^ 53 : ℤ) : ℝ) * 2 ^ (L - 52) = -2 ^ (L + 1) := by
      rw [zpow_sub₀ (by norm_num), zpow_add₀ (by norm_num)]; norm_num; field_simp; norm_num
    rw [this]; linarith
  have b1 := hq.mono a1
  have b2 := hq.mono a2
  rw [hq.int] at b1 b2
  have c1 : (q (-|x| / ulp x) : ℝ) ≤ ((-2 ^ 52 : ℤ) : ℝ) := by exact_mod_cast b1
  have c2 : ((-2 ^ 53 : ℤ) : ℝ) ≤ (q (-|x| / ulp x) : ℝ) := by exact_mod_cast b2
  have hul : ulp (-|x|) = ulp x := by unfold ulp; rw [abs_neg, abs_abs]
  have hlog : Int.log 2 |(-|x|)| = L := by rw [abs_neg, abs_abs, hL]
  rw [hlog]
  unfold rn
  rw [hul]
  constructor
  · refine le_trans (le_of_eq ?_) (mul_le_mul_of_nonneg_right c2 hu.le)
    rw [eu, zpow_sub₀ (by norm_num), zpow_add₀ (by norm_num)]; norm_num; field_simp; norm_num
  · refine le_trans (mul_le_mul_of_nonneg_right c1 hu.le) (le_of_eq ?_)
    rw [eu, zpow_sub₀ (by norm_num)]; norm_num; field_simp

theorem rn_mono (hq : IntRound q) : Monotone (rn q) := by
  intro x y hxy
  rcases hxy.eq_or_lt with rfl | hlt
  · exact le_rfl
  rcases lt_trichotomy x 0 with hx | hx | hx
  · rcases lt_or_ge y 0 with hy | hy
    · have ha : |y| ≤ |x| := by rw [abs_of_neg hx, abs_of_neg hy]; linarith
      have hl : Int.log 2 |y| ≤ Int.log 2 |x| := Int.log_mono_right (abs_pos.mpr hy.ne) ha
      rcases hl.eq_or_lt with h | h
      · have hu : ulp x = ulp y := by unfold ulp; rw [h]
        unfold rn
        rw [hu]
        refine mul_le_mul_of_nonneg_right ?_ (ulp_pos y).le
        exact_mod_cast hq.mono (div_le_div_of_nonneg_right hxy (ulp_pos y).le)
      · have h1 := (rn_neg_bounds hq hx).2
        have h2 := (rn_neg_bounds hq hy).1
        have h3 : (2 : ℝ) ^ (Int.log 2 |y| + 1) ≤ 2 ^ Int.log 2 |x| := zpow_le_zpow_right₀ (by norm_num) (by omega)
        linarith
    · have h1 := (rn_neg_bounds hq hx).2
      have h2 : 0 ≤ rn q y := by
        rcases hy.eq_or_lt with h | h
        · rw [← h, rn_zero hq]
        · exact le_trans (by positivity) (rn_pos_bounds hq h).1
      have : (0 : ℝ) < 2 ^ Int.log 2 |x| := by positivity
      linarith
  · subst hx
    rw [rn_zero hq]
    exact le_trans (by positivity) (rn_pos_bounds hq hlt).1
  · have hy := hx.trans hlt
    have ha : |x| ≤ |y| := by rw [abs_of_pos hx, abs_of_pos hy]; exact hxy
    have hl : Int.log 2 |x| ≤ Int.log 2 |y| := Int.log_mono_right (abs_pos.mpr hx.ne') ha
    rcases hl.eq_or_lt with h | h
    · have hu : ulp x = ulp y := by unfold ulp; rw [h]
      unfold rn
      rw [hu]
      refine mul_le_mul_of_nonneg_right ?_ (ulp_pos y).le
      exact_mod_cast hq.mono (div_le_div_of_nonneg_right hxy (ulp_pos y).le)
    · have h1 := (rn_pos_bounds hq hx).2
      have h2 := (rn_pos_bounds hq hy).1
      have h3 : (2 : ℝ) ^ (Int.log 2 |x| + 1) ≤ 2 ^ Int.log 2 |y| := zpow_le_zpow_right₀ (by norm_num) (by omega)
      linarith

/-- The significand of a result has 53 bits. -/
theorem rn_form (hq : IntRound q) (x : ℝ) : |q (x / ulp x)| ≤ 2 ^ 53 := by
  have hu := ulp_pos x
  have h2 := (lt_log x).le
  have eu : ulp x = 2 ^ (Int.log 2 |x| - 52) := rfl
  have hb : |x / ulp x| ≤ ((2 ^ 53 : ℤ) : ℝ) := by
    rw [abs_div, abs_of_pos hu, div_le_iff₀ hu, eu]
    refine le_trans h2 (le_of_eq ?_)
    rw [zpow_sub₀ (by norm_num), zpow_add₀ (by norm_num)]; norm_num; field_simp; norm_num
  rw [abs_le] at hb
  have b2 := hq.mono hb.2
  have b1 := hq.mono (show (((-2 ^ 53 : ℤ)) : ℝ) ≤ _ by push_cast at hb ⊢; exact hb.1)
  rw [hq.int] at b1 b2
  rw [abs_le]
  exact ⟨b1, b2⟩

theorem rn_idem (hq : IntRound q) (x : ℝ) : rn q (rn q x) = rn q x :=
  rn_exact hq (q (x / ulp x)) _ (rn_form hq x)

theorem log_double {x : ℝ} (h : 0 < x) : Int.log 2 (2 * x) = Int.log 2 x + 1 := by
  have hx2 : 0 < 2 * x := by positivity
  have a := Int.zpow_log_le_self (b := 2) (by norm_num) h
  have b := Int.lt_zpow_succ_log_self (b := 2) (by norm_num) x
  apply le_antisymm
  · apply Int.lt_add_one_iff.mp
    apply (Int.lt_zpow_iff_log_lt (b := 2) (by norm_num) hx2).mp
    rw [zpow_add₀ (by norm_num)]
    push_cast at b ⊢
    linarith
  · apply (Int.zpow_le_iff_le_log (b := 2) (by norm_num) hx2).mp
    rw [zpow_add₀ (by norm_num)]
    push_cast at a ⊢
    linarith

theorem rn_double (hq : IntRound q) (x : ℝ) : rn q (2 * x) = 2 * rn q x := by
  by_cases h : x = 0
  · subst h; rw [mul_zero, rn_zero hq, mul_zero]
  · have hu : ulp (2 * x) = 2 * ulp x := by
      unfold ulp
      rw [abs_mul, abs_of_pos (show (0 : ℝ) < 2 by norm_num), log_double (abs_pos.mpr h),
        show Int.log 2 |x| + 1 - 52 = (Int.log 2 |x| - 52) + 1 by ring, zpow_add₀ (by norm_num)]
      ring
    unfold rn
    rw [hu, mul_div_mul_left _ _ (by norm_num : (2 : ℝ) ≠ 0)]
    ring

/-- The relative error of rounding to nearest is at most `2^-53`. -/
theorem rn_rel (hn : ∀ x, |(q x : ℝ) - x| ≤ 1 / 2) (x : ℝ) (hx : x ≠ 0) : |rn q x - x| ≤ |x| / 2 ^ 53 := by
  have hu := ulp_pos x
  have h1 := log_le hx
  have e : rn q x - x = ((q (x / ulp x) : ℝ) - x / ulp x) * ulp x := by
    unfold rn
    rw [sub_mul, div_mul_cancel₀ _ hu.ne']
  rw [e, abs_mul, abs_of_pos hu]
  have eu : ulp x = 2 ^ (Int.log 2 |x|) / 2 ^ 52 := by
    unfold ulp
    rw [zpow_sub₀ (by norm_num)]
    norm_num
  have h2 := mul_le_mul_of_nonneg_right (hn (x / ulp x)) hu.le
  refine h2.trans ?_
  rw [eu]
  have : (2 : ℝ) ^ 53 = 2 * 2 ^ 52 := by norm_num
  rw [this]
  have : 1 / 2 * ((2 : ℝ) ^ (Int.log 2 |x|) / 2 ^ 52) = 2 ^ (Int.log 2 |x|) / (2 * 2 ^ 52) := by ring
  rw [this]
  exact div_le_div_of_nonneg_right h1 (by positivity)

/-- Binary64 rounding has the properties used by the theorems about rounded arithmetic. -/
theorem rounding_rn (hq : IntRound q) : Rounding (rn q) (2 ^ 52) where
  mono := rn_mono hq
  idem := rn_idem hq
  int_exact i hi := by
    have h := rn_exact hq i 0 (by
      have : (|i| : ℤ) ≤ 2 ^ 52 := by exact_mod_cast hi
      omega)
    simpa using h
  half_exact i hi := by
    have h := rn_exact hq (2 * i + 1) (-1) (by rw [abs_of_nonneg (by positivity)]; push_cast at hi ⊢; omega)
    have e : (((2 * (i : ℤ) + 1 : ℤ)) : ℝ) * 2 ^ (-1 : ℤ) = i + 1 / 2 := by
      push_cast
      rw [zpow_neg_one]; ring
    rw [e] at h
    exact h
  pi_twice := by
    rw [← rn_double hq]
    congr 1
    ring

/-- The IEEE 754 default: round to nearest, ties to even. -/
noncomputable abbrev dbl : ℝ → ℝ := rn nearestEven

theorem rounding_dbl : Rounding dbl (2 ^ 52) := rounding_rn intRound_nearestEven

theorem dbl_rel (x : ℝ) : |dbl x - x| ≤ |x| / 2 ^ 53 := by
  by_cases h : x = 0
  · subst h; show |rn nearestEven 0 - 0| ≤ _; rw [rn_zero intRound_nearestEven]; simp
  · exact rn_rel nearestEven_near x h

/-! ## single precision -/

/-- IEEE 754 binary32, round to nearest, ties to even (unbounded exponents): multiples of `2^(e-23)` in `[2^e, 2^(e+1))`. -/
noncomputable def sgl (x : ℝ) : ℝ := (nearestEven (x / 2 ^ (Int.log 2 |x| - 23)) : ℝ) * 2 ^ (Int.log 2 |x| - 23)

theorem sgl_rel (x : ℝ) : |sgl x - x| ≤ |x| / 2 ^ 24 := by
  unfold sgl
  set w : ℝ := 2 ^ (Int.log 2 |x| - 23) with hw
  have hu : 0 < w := by positivity
  by_cases hx : x = 0
  · subst hx
    have := nearestEven_near 0
    have h0 : nearestEven 0 = 0 := by
      have h := abs_le.mp this
      have h1 : ((nearestEven 0 : ℤ) : ℝ) < 1 := by linarith [h.2]
      have h2 : (-1 : ℝ) < ((nearestEven 0 : ℤ) : ℝ) := by linarith [h.1]
      have h1' : nearestEven 0 < 1 := by exact_mod_cast h1
      have h2' : -1 < nearestEven 0 := by exact_mod_cast h2
      omega
    rw [zero_div, h0]; simp
  · have h1 := log_le hx
    have e : (nearestEven (x / w) : ℝ) * w - x = ((nearestEven (x / w) : ℝ) - x / w) * w := by
      rw [sub_mul, div_mul_cancel₀ _ hu.ne']
    rw [e, abs_mul, abs_of_pos hu]
    have eu : w = 2 ^ (Int.log 2 |x|) / 2 ^ 23 := by
      rw [hw, zpow_sub₀ (by norm_num)]
      norm_num
    have h2 := mul_le_mul_of_nonneg_right (nearestEven_near (x / w)) hu.le
    refine h2.trans ?_
    rw [eu]
    have : (2 : ℝ) ^ 24 = 2 * 2 ^ 23 := by norm_num
    rw [this]
    have : 1 / 2 * ((2 : ℝ) ^ (Int.log 2 |x|) / 2 ^ 23) = 2 ^ (Int.log 2 |x|) / (2 * 2 ^ 23) := by ring
    rw [this]
    exact div_le_div_of_nonneg_right h1 (by positivity)

end Verif.Double
