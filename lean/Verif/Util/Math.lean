import Verif.Util.Double
import Verif.Base.Res
import Mathlib.Data.Nat.Log
import Mathlib.Tactic.IntervalCases

/-!
# Integer helpers (C42)

levels/cxxsupport/ls_math_utils.h:85-135.
-/

namespace Verif.Util

open Verif Verif.Res Verif.Double

/-- `imodulo`, ls_math_utils.h:85-86; C++ `%` truncates towards zero.  Simplification: unbounded integers (for `v2 > 0` no
intermediate leaves the range of the type: `C42_imodulo_no_overflow`). -/
def imodulo (v1 v2 : ℤ) : ℤ :=
  let v := Int.tmod v1 v2
  if 0 ≤ v then v else v + v2

/-- `xpow`, ls_math_utils.h:93-94; `m&1` of a two's complement number is its parity. -/
def xpow (m : ℤ) (val : ℝ) : ℝ := if m % 2 = 1 then -val else val

/-- `while (arg > 0xFFFF) { res+=16; arg>>=16; }`, ls_math_utils.h:129: the resulting `(res, arg)`. -/
def ilogLoop (res arg : ℕ) : ℕ × ℕ :=
  if h : 0xFFFF < arg then ilogLoop (res + 16) (arg >>> 16) else (res, arg)
termination_by arg
decreasing_by
  rw [Nat.shiftRight_eq_div_pow]
  exact Nat.div_lt_self (by omega) (by norm_num)

/-- `if (arg > lim) { res|=k; arg>>=k; }`, ls_math_utils.h:130-133. -/
def ilogIf (lim k : ℕ) (p : ℕ × ℕ) : ℕ × ℕ := if lim < p.2 then (p.1 ||| k, p.2 >>> k) else p

/-- `ilog2`, ls_math_utils.h:126-135 (non-negative arguments). -/
def ilog2 (arg : ℕ) : ℕ :=
  (ilogIf 1 1 (ilogIf 3 2 (ilogIf 0xF 4 (ilogIf 0xFF 8 (ilogLoop 0 arg))))).1

/-- `uint32(sqrt(arg+0.5))`, ls_math_utils.h:103, with `rnd` the rounding of doubles. -/
noncomputable def isqrt32 (rnd : ℝ → ℝ) (arg : ℕ) : ℕ :=
  ⌊rnd (√(rnd (rnd (arg : ℝ) + 1 / 2)))⌋₊

/-- The correction step, ls_math_utils.h:113-117, in unbounded arithmetic. -/
def isqrtFix (res arg : ℕ) : ℕ :=
  if arg < res * res then res - 1 else if (res + 1) * (res + 1) ≤ arg then res + 1 else res

/-- `isqrt` for `int64` arguments, ls_math_utils.h:108-118: a product beyond `2^63-1` is undefined behaviour. -/
noncomputable def isqrt64 (rnd : ℝ → ℝ) (arg : ℕ) : Res ℕ :=
  let res := isqrt32 rnd arg
  if arg < 2 ^ 50 then ok (res % 2 ^ 32)
  else if 2 ^ 63 ≤ res * res then ub "signed overflow in res*res"
  else if arg < res * res then ok ((res - 1) % 2 ^ 32)
  else if 2 ^ 63 ≤ (res + 1) * (res + 1) then ub "signed overflow in (res+1)*(res+1)"
  else ok (isqrtFix res arg % 2 ^ 32)

/-- `isqrt` for `uint64` arguments, ls_math_utils.h:108-118: products wrap modulo `2^64`. -/
noncomputable def isqrtU64 (rnd : ℝ → ℝ) (arg : ℕ) : ℕ :=
  let res := isqrt32 rnd arg
  if arg < 2 ^ 50 then res % 2 ^ 32
  else if arg < res * res % 2 ^ 64 then (res - 1) % 2 ^ 32
  else if (res + 1) * (res + 1) % 2 ^ 64 ≤ arg then (res + 1) % 2 ^ 32 else res % 2 ^ 32

/-! ## imodulo, xpow, ilog2 -/

/-- C42: `imodulo(v1,v2)` lies in `[0,v2)` and differs from `v1` by a multiple of `v2`, for every `v1` and every positive `v2`;
these two facts determine it: it is the mathematical remainder. -/
theorem C42_imodulo (v1 v2 : ℤ) (h : 0 < v2) :
    0 ≤ imodulo v1 v2 ∧ imodulo v1 v2 < v2 ∧ (∃ k, v1 = imodulo v1 v2 + k * v2) ∧ imodulo v1 v2 = v1 % v2 := by
  have key : imodulo v1 v2 = v1 % v2 := by
    unfold imodulo
    dsimp only
    have e := Int.mul_tdiv_add_tmod v1 v2
    have hlt : Int.tmod v1 v2 < v2 := Int.tmod_lt_of_pos _ h
    have hgt : -v2 < Int.tmod v1 v2 := by
      have := Int.tmod_lt_of_pos (-v1) h
      rw [Int.neg_tmod] at this
      omega
    generalize Int.tmod v1 v2 = r at *
    generalize Int.tdiv v1 v2 = d at *
    split
    · rw [← e, Int.add_comm, Int.add_mul_emod_self_left, Int.emod_eq_of_lt ‹_› hlt]
    · rw [← e, Int.add_comm (v2 * d), Int.add_mul_emod_self_left, ← Int.add_emod_right, Int.emod_eq_of_lt (by omega) (by omega)]
  rw [key]
  refine ⟨Int.emod_nonneg _ h.ne', Int.emod_lt_of_pos _ h, ⟨v1 / v2, ?_⟩, rfl⟩
  have := Int.emod_add_mul_ediv v1 v2
  linarith

/-- C42: no intermediate of `imodulo` leaves a signed range that contains its arguments. -/
theorem C42_imodulo_no_overflow (v1 v2 M : ℤ) (h : 0 < v2) (h2 : v2 ≤ M) :
    -M - 1 ≤ Int.tmod v1 v2 ∧ Int.tmod v1 v2 ≤ M ∧ (Int.tmod v1 v2 < 0 → Int.tmod v1 v2 + v2 ≤ M) := by
  have hlt : Int.tmod v1 v2 < v2 := Int.tmod_lt_of_pos _ h
  have hgt : -v2 < Int.tmod v1 v2 := by
    have := Int.tmod_lt_of_pos (-v1) h
    rw [Int.neg_tmod] at this
    omega
  refine ⟨by omega, by omega, fun _ => by omega⟩

/-- C42: `xpow(m,v) = (-1)^m v`, negative `m` included. -/
theorem C42_xpow (m : ℤ) (v : ℝ) : xpow m v = (-1) ^ m * v := by
  unfold xpow
  rcases Int.even_or_odd m with h | h
  · rw [if_neg (by have := Int.even_iff.mp h; omega), h.neg_one_zpow, one_mul]
  · rw [if_pos (Int.odd_iff.mp h), h.neg_one_zpow, neg_one_mul]

theorem ilogLoop_spec (res arg : ℕ) (h : 0 < arg) :
    ∃ j, (ilogLoop res arg).1 = res + 16 * j ∧ (ilogLoop res arg).2 = arg >>> (16 * j) ∧ 0 < (ilogLoop res arg).2 ∧
      (ilogLoop res arg).2 < 2 ^ 16 := by
  induction arg using Nat.strong_induction_on generalizing res with
  | _ arg ih =>
    unfold ilogLoop
    split
    · rename_i hg
      obtain ⟨j, h1, h2, h3, h4⟩ := ih (arg >>> 16)
        (by rw [Nat.shiftRight_eq_div_pow]; exact Nat.div_lt_self (by omega) (by norm_num)) (res + 16)
        (by rw [Nat.shiftRight_eq_div_pow]; exact Nat.div_pos (by omega) (by norm_num))
      refine ⟨j + 1, by rw [h1]; ring, ?_, h3, h4⟩
      rw [h2, ← Nat.shiftRight_add]
      congr 1; ring
    · exact ⟨0, by simp, by simp, h, by dsimp only; omega⟩

theorem ilogIf_spec (k : ℕ) {p : ℕ × ℕ} (h0 : 0 < p.2) (h : p.2 < 2 ^ (2 * k)) :
    ∃ b, b ≤ 1 ∧ (ilogIf (2 ^ k - 1) k p).1 = p.1 ||| (k * b) ∧ (ilogIf (2 ^ k - 1) k p).2 = p.2 >>> (k * b) ∧
      0 < (ilogIf (2 ^ k - 1) k p).2 ∧ (ilogIf (2 ^ k - 1) k p).2 < 2 ^ k := by
  unfold ilogIf
  split
  · rename_i hg
    refine ⟨1, le_rfl, by simp, by simp, ?_, ?_⟩ <;> dsimp only <;> rw [Nat.shiftRight_eq_div_pow]
    · exact Nat.div_pos (by omega) (by positivity)
    · apply Nat.div_lt_of_lt_mul
      rwa [← pow_add, ← two_mul]
  · refine ⟨0, by norm_num, by simp, by simp, h0, ?_⟩
    have : 0 < 2 ^ k := by positivity
    omega

/-- C42: `ilog2(arg)` is the largest `n` with `2^n ≤ arg`, for every positive `arg` (of any width). -/
theorem C42_ilog2 (arg : ℕ) (h : 0 < arg) :
    2 ^ ilog2 arg ≤ arg ∧ arg < 2 ^ (ilog2 arg + 1) ∧ ilog2 arg = Nat.log 2 arg := by
  obtain ⟨j, a1, a2, a3, a4⟩ := ilogLoop_spec 0 arg h
  obtain ⟨b8, hb8, c1, c2, c3, c4⟩ := ilogIf_spec 8 a3 (by simpa using a4)
  obtain ⟨b4, hb4, d1, d2, d3, d4⟩ := ilogIf_spec 4 c3 (by simpa using c4)
  obtain ⟨b2, hb2, e1, e2, e3, e4⟩ := ilogIf_spec 2 d3 (by simpa using d4)
  obtain ⟨b1, hb1, f1, f2, f3, f4⟩ := ilogIf_spec 1 e3 (by simpa using e4)
  norm_num at c1 c2 c3 c4 d1 d2 d3 d4 e1 e2 e3 e4 f1 f2 f3 f4
  have hil : ilog2 arg = 16 * j + 8 * b8 + 4 * b4 + 2 * b2 + b1 := by
    unfold ilog2
    rw [f1, e1, d1, c1, a1, zero_add]
    have lem : ∀ (n b k : ℕ), b ≤ 1 → 2 ^ (k + 1) ∣ n → n ||| (2 ^ k * b) = n + 2 ^ k * b := by
      intro n b k hb hd
      obtain ⟨c, rfl⟩ := hd
      rw [← Nat.two_pow_add_eq_or_of_lt]
      rcases Nat.le_one_iff_eq_zero_or_eq_one.mp hb with rfl | rfl
      · simp
      · rw [pow_succ]; have : 0 < 2 ^ k := by positivity
        omega
    have l8 := lem (16 * j) b8 3 hb8 ⟨j, by ring⟩
    have l4 := lem (16 * j + 8 * b8) b4 2 hb4 ⟨2 * j + b8, by ring⟩
    have l2 := lem (16 * j + 8 * b8 + 4 * b4) b2 1 hb2 ⟨4 * j + 2 * b8 + b4, by ring⟩
    have l1 := lem (16 * j + 8 * b8 + 4 * b4 + 2 * b2) b1 0 hb1 ⟨8 * j + 4 * b8 + 2 * b4 + b2, by ring⟩
    norm_num at l8 l4 l2 l1
    rw [l8, l4, l2, l1]
  have hsh : arg >>> ilog2 arg = 1 := by
    have : arg >>> (16 * j + 8 * b8 + 4 * b4 + 2 * b2 + b1) = 1 := by
      rw [Nat.shiftRight_add, Nat.shiftRight_add, Nat.shiftRight_add, Nat.shiftRight_add, ← a2, ← c2, ← d2, ← e2, ← f2]
      omega
    rwa [hil]
  rw [Nat.shiftRight_eq_div_pow] at hsh
  have hp : 0 < 2 ^ ilog2 arg := by positivity
  have h1 : 2 ^ ilog2 arg ≤ arg := by
    have := Nat.div_mul_le_self arg (2 ^ ilog2 arg)
    rw [hsh] at this; omega
  have h2 : arg < 2 ^ (ilog2 arg + 1) := by
    have := Nat.lt_mul_div_succ arg hp
    rw [hsh] at this
    rw [pow_succ]; omega
  exact ⟨h1, h2, ((Nat.log_eq_iff (Or.inr ⟨by norm_num, h.ne'⟩)).mpr ⟨h1, h2⟩).symm⟩

example : ilog2 0xFFFFFFFFFFFFFFFF = 63 := by
  have := (C42_ilog2 0xFFFFFFFFFFFFFFFF (by norm_num)).2.2
  rw [this]; exact (Nat.log_eq_iff (by norm_num)).mpr (by norm_num)

/-! ## isqrt -/

/-- What is used of the rounding of doubles (met by binary64, `Double.rounding_dbl` and `Double.dbl_rel`). -/
structure Dbl (rnd : ℝ → ℝ) : Prop where
  r : Tod.Rounding rnd (2 ^ 52)
  rel : ∀ x, |rnd x - x| ≤ |x| / 2 ^ 53

theorem dbl_ok : Dbl dbl := ⟨rounding_dbl, dbl_rel⟩

variable {rnd : ℝ → ℝ}

theorem rel_le (h : Dbl rnd) {x : ℝ} (hx : 0 ≤ x) : rnd x ≤ x * (1 + 1 / 2 ^ 53) ∧ x * (1 - 1 / 2 ^ 53) ≤ rnd x := by
  have := h.rel x
  rw [abs_of_nonneg hx, abs_le] at this
  constructor <;> linarith [this.1, this.2]

theorem isqrt32_small (h : Dbl rnd) {arg : ℕ} (ha : arg < 2 ^ 50) : isqrt32 rnd arg = Nat.sqrt arg := by
  set n := Nat.sqrt arg with hn
  have h1 : n * n ≤ arg := Nat.sqrt_le arg
  have h2 : arg < (n + 1) * (n + 1) := Nat.lt_succ_sqrt arg
  have ea : rnd (arg : ℝ) = arg := by
    have := h.r.int_exact (arg : ℤ) (by rw [abs_of_nonneg (by positivity)]; push_cast; omega)
    simpa using this
  have eh : rnd ((arg : ℝ) + 1 / 2) = arg + 1 / 2 := h.r.half_exact arg (by omega)
  unfold isqrt32
  rw [ea, eh]
  have hnn : rnd (n : ℝ) = n := by
    have hle : n ≤ arg := Nat.sqrt_le_self arg
    have := h.r.int_exact (n : ℤ) (by rw [abs_of_nonneg (by positivity)]; push_cast; omega)
    simpa using this
  have h1r : (n : ℝ) * n ≤ arg := by exact_mod_cast h1
  have h2r : (arg : ℝ) + 1 ≤ (n + 1) * (n + 1) := by exact_mod_cast h2
  have har : (arg : ℝ) + 1 ≤ 2 ^ 50 := by exact_mod_cast ha
  have hs0 : (0 : ℝ) ≤ (arg : ℝ) + 1 / 2 := by positivity
  set s := √((arg : ℝ) + 1 / 2) with hs
  have hsq : s * s = arg + 1 / 2 := Real.mul_self_sqrt hs0
  have hsn : 0 ≤ s := Real.sqrt_nonneg _
  have hlow : (n : ℝ) ≤ rnd s := by
    rw [← hnn]
    apply h.r.mono
    apply Real.le_sqrt_of_sq_le
    nlinarith
  have hup : rnd s < n + 1 := by
    by_contra hc
    push Not at hc
    have h3 := hc.trans (rel_le h hsn).1
    have h4 : ((n : ℝ) + 1) * (n + 1) ≤ (s * (1 + 1 / 2 ^ 53)) * (s * (1 + 1 / 2 ^ 53)) :=
      mul_self_le_mul_self (by positivity) h3
    have h5 : (s * (1 + 1 / 2 ^ 53)) * (s * (1 + 1 / 2 ^ 53)) = (arg + 1 / 2) * (1 + 1 / 2 ^ 53) ^ 2 := by
      rw [← hsq]; ring
    rw [h5] at h4
    norm_num at h4 har
    nlinarith
  rw [Nat.floor_eq_iff (le_trans (by positivity) hlow)]
  exact ⟨hlow, hup⟩

theorem ub_aux {A D1 D2 S : ℝ} (h : A ≤ 2 ^ 64) (h1 : D1 ≤ A * (1 + 1 / 2 ^ 53)) (h2 : D2 ≤ (D1 + 1 / 2) * (1 + 1 / 2 ^ 53))
    (h3 : S ≤ D2 * (1 + 1 / 2 ^ 53) ^ 2) : S ≤ A + 2 ^ 14 := by
  norm_num at *
  linarith

theorem lb_aux {A D1 D2 S : ℝ} (h : A ≤ 2 ^ 64) (h1 : A * (1 - 1 / 2 ^ 53) ≤ D1) (h2 : (D1 + 1 / 2) * (1 - 1 / 2 ^ 53) ≤ D2)
    (h3 : D2 * (1 - 1 / 2 ^ 53) ^ 2 ≤ S) : A - 2 ^ 14 ≤ S := by
  norm_num at *
  linarith

/-- The rounded root is off by less than the correction step can repair. -/
theorem isqrt32_large (h : Dbl rnd) {arg : ℕ} (h50 : 2 ^ 50 ≤ arg) (h64 : arg < 2 ^ 64) :
    isqrt32 rnd arg ≤ Nat.sqrt arg + 1 ∧ ∀ n, n * n + 2 ^ 14 ≤ arg → n ≤ isqrt32 rnd arg := by
  set n := Nat.sqrt arg with hn
  have h2 : arg < (n + 1) * (n + 1) := Nat.lt_succ_sqrt arg
  have hn25 : 2 ^ 25 ≤ n := by rw [hn, Nat.le_sqrt]; exact h50
  have h2r : (arg : ℝ) + 1 ≤ (n + 1) * (n + 1) := by exact_mod_cast h2
  have hnr : (2 ^ 25 : ℝ) ≤ n := by exact_mod_cast hn25
  have h64r : (arg : ℝ) ≤ 2 ^ 64 := by exact_mod_cast h64.le
  have h50r : (2 ^ 50 : ℝ) ≤ arg := by exact_mod_cast h50
  have ha0 : (0 : ℝ) ≤ arg := by positivity
  obtain ⟨u1, l1⟩ := rel_le h ha0
  have hd1 : 0 ≤ rnd (arg : ℝ) := le_trans (mul_nonneg (by positivity) (by norm_num)) l1
  obtain ⟨u2, l2⟩ := rel_le h (show 0 ≤ rnd (arg : ℝ) + 1 / 2 by positivity)
  have hd2 : 0 ≤ rnd (rnd (arg : ℝ) + 1 / 2) := le_trans (mul_nonneg (by positivity) (by norm_num)) l2
  unfold isqrt32
  set d2 := rnd (rnd (arg : ℝ) + 1 / 2) with hdd
  have hsn : 0 ≤ √d2 := Real.sqrt_nonneg _
  have hsq : √d2 * √d2 = d2 := Real.mul_self_sqrt hd2
  obtain ⟨u3, l3⟩ := rel_le h hsn
  have hs0 : 0 ≤ rnd √d2 := le_trans (mul_nonneg (by positivity) (by norm_num)) l3
  have ub : rnd √d2 * rnd √d2 ≤ d2 * (1 + 1 / 2 ^ 53) ^ 2 := by
    have := mul_self_le_mul_self hs0 u3
    calc _ ≤ _ := this
      _ = (√d2 * √d2) * (1 + 1 / 2 ^ 53) ^ 2 := by ring
      _ = _ := by rw [hsq]
  have lb : d2 * (1 - 1 / 2 ^ 53) ^ 2 ≤ rnd √d2 * rnd √d2 := by
    have := mul_self_le_mul_self (by norm_num) l3
    calc _ = (√d2 * √d2) * (1 - 1 / 2 ^ 53) ^ 2 := by rw [hsq]
      _ = _ := by ring
      _ ≤ _ := this
  have ub2 : rnd √d2 * rnd √d2 ≤ arg + 2 ^ 14 := by
    exact ub_aux h64r u1 u2 ub
  have lb2 : (arg : ℝ) - 2 ^ 14 ≤ rnd √d2 * rnd √d2 := by
    exact lb_aux h64r l1 l2 lb
  constructor
  · rw [← Nat.lt_succ_iff, Nat.floor_lt hs0]
    push_cast
    by_contra hc
    push Not at hc
    have := mul_self_le_mul_self (by positivity) hc
    generalize rnd √d2 * rnd √d2 = S at *
    generalize (arg : ℝ) = A at *
    generalize (n : ℝ) = N at *
    norm_num at ub2 this hnr
    nlinarith
  · intro k hk
    rw [Nat.le_floor_iff hs0]
    have hkr : (k : ℝ) * k + 2 ^ 14 ≤ arg := by exact_mod_cast hk
    by_contra hc
    push Not at hc
    have := mul_self_lt_mul_self hs0 hc
    linarith

theorem isqrt32_large_ge (h : Dbl rnd) {arg : ℕ} (h50 : 2 ^ 50 ≤ arg) (h64 : arg < 2 ^ 64) :
    Nat.sqrt arg - 1 ≤ isqrt32 rnd arg := by
  apply (isqrt32_large h h50 h64).2
  have hn25 : 2 ^ 25 ≤ Nat.sqrt arg := by rw [Nat.le_sqrt]; exact h50
  have h1 := Nat.sqrt_le arg
  obtain ⟨k, hk⟩ : ∃ k, Nat.sqrt arg = k + 1 := ⟨Nat.sqrt arg - 1, by omega⟩
  rw [hk] at h1 hn25 ⊢
  simp only [Nat.add_sub_cancel]
  nlinarith

/-- C42: for 32 bit arguments `isqrt(arg)` is the integer `n` with `n² ≤ arg < (n+1)²`. -/
theorem C42_isqrt (h : Dbl rnd) (arg : ℕ) (ha : arg < 2 ^ 32) :
    isqrt32 rnd arg * isqrt32 rnd arg ≤ arg ∧ arg < (isqrt32 rnd arg + 1) * (isqrt32 rnd arg + 1) := by
  rw [isqrt32_small h (by omega)]
  exact ⟨Nat.sqrt_le arg, Nat.lt_succ_sqrt arg⟩

theorem fix_eq {res arg : ℕ} (h1 : Nat.sqrt arg ≤ res + 1) (h2 : res ≤ Nat.sqrt arg + 1) : isqrtFix res arg = Nat.sqrt arg := by
  have a1 := Nat.sqrt_le arg
  have a2 := Nat.lt_succ_sqrt arg
  generalize Nat.sqrt arg = n at *
  simp only [Nat.succ_eq_add_one] at a2
  unfold isqrtFix
  rcases (show res + 1 = n ∨ res = n ∨ res = n + 1 by omega) with e | e | e
  · subst e
    rw [if_neg (show ¬arg < res * res by nlinarith), if_pos a1]
  · rw [e, if_neg (show ¬arg < n * n by omega), if_neg (by omega)]
  · rw [e, if_pos a2]; rfl

/-- C42: for 64 bit signed arguments below `3037000499²` (the square of the largest root) `isqrt` is the integer square root
and no signed overflow occurs. -/
theorem C42_isqrt64_partial (h : Dbl rnd) (arg : ℕ) (ha : arg < 3037000499 * 3037000499) :
    ∃ n, isqrt64 rnd arg = ok n ∧ n * n ≤ arg ∧ arg < (n + 1) * (n + 1) := by
  refine ⟨Nat.sqrt arg, ?_, Nat.sqrt_le arg, Nat.lt_succ_sqrt arg⟩
  have hn : Nat.sqrt arg < 3037000499 := Nat.sqrt_lt.mpr ha
  unfold isqrt64
  dsimp only
  by_cases h50 : arg < 2 ^ 50
  · rw [if_pos h50, isqrt32_small h h50, Nat.mod_eq_of_lt (by omega)]
  · rw [if_neg h50]
    push Not at h50
    have b1 := (isqrt32_large h h50 (by omega)).1
    have b2 := isqrt32_large_ge h h50 (show arg < 2 ^ 64 by omega)
    have a2 := Nat.lt_succ_sqrt arg
    simp only [Nat.succ_eq_add_one] at a2
    set res := isqrt32 rnd arg
    have hf := fix_eq (show Nat.sqrt arg ≤ res + 1 by omega) b1
    have hrr : res * res < 2 ^ 63 := by
      have : res * res ≤ 3037000499 * 3037000499 := Nat.mul_le_mul (by omega) (by omega)
      omega
    rw [if_neg (by omega)]
    by_cases hgt : arg < res * res
    · rw [if_pos hgt]
      have : isqrtFix res arg = res - 1 := by unfold isqrtFix; rw [if_pos hgt]
      rw [← this, hf, Nat.mod_eq_of_lt (by omega)]
    · have hle : res ≤ Nat.sqrt arg := Nat.le_sqrt.mpr (by omega)
      have h3 : (res + 1) * (res + 1) < 2 ^ 63 := by
        have : (res + 1) * (res + 1) ≤ 3037000499 * 3037000499 := Nat.mul_le_mul (by omega) (by omega)
        omega
      rw [if_neg hgt, if_neg (by omega), hf, Nat.mod_eq_of_lt (by omega)]

/-- C42, finding: for every larger `int64` argument (from `3037000499² + 2^14` on; `INT64_MAX` included) the correction step
overflows, which is undefined behaviour. -/
theorem C42_isqrt64_overflow (h : Dbl rnd) (arg : ℕ) (h1 : 3037000499 * 3037000499 + 2 ^ 14 ≤ arg) (h2 : arg < 2 ^ 63) :
    (isqrt64 rnd arg).IsUB := by
  have h50 : 2 ^ 50 ≤ arg := by omega
  have b2 := (isqrt32_large h h50 (by omega)).2 3037000499 h1
  have b1 := (isqrt32_large h h50 (by omega)).1
  have hs : Nat.sqrt arg < 3037000500 := Nat.sqrt_lt.mpr (by omega)
  unfold isqrt64
  dsimp only
  rw [if_neg (by omega)]
  set res := isqrt32 rnd arg
  rcases (show res = 3037000499 ∨ res = 3037000500 by omega) with e | e
  · rw [e, if_neg (by norm_num), if_neg (by omega), if_pos (by norm_num)]
    trivial
  · rw [e, if_pos (by norm_num)]
    trivial

/-- C42: the unsigned 64 bit version is right below `(2^32-1)²`. -/
theorem C42_isqrtU64_partial (h : Dbl rnd) (arg : ℕ) (ha : arg < 4294967295 * 4294967295) :
    isqrtU64 rnd arg * isqrtU64 rnd arg ≤ arg ∧ arg < (isqrtU64 rnd arg + 1) * (isqrtU64 rnd arg + 1) := by
  have hn : Nat.sqrt arg < 4294967295 := Nat.sqrt_lt.mpr ha
  suffices he : isqrtU64 rnd arg = Nat.sqrt arg by rw [he]; exact ⟨Nat.sqrt_le arg, Nat.lt_succ_sqrt arg⟩
  unfold isqrtU64
  dsimp only
  by_cases h50 : arg < 2 ^ 50
  · rw [if_pos h50, isqrt32_small h h50, Nat.mod_eq_of_lt (by omega)]
  · rw [if_neg h50]
    push Not at h50
    have b1 := (isqrt32_large h h50 (by omega)).1
    have b2 := isqrt32_large_ge h h50 (show arg < 2 ^ 64 by omega)
    set res := isqrt32 rnd arg
    have hf := fix_eq (show Nat.sqrt arg ≤ res + 1 by omega) b1
    have hrr : res * res < 2 ^ 64 := by
      have : res * res ≤ 4294967295 * 4294967295 := Nat.mul_le_mul (by omega) (by omega)
      omega
    rw [Nat.mod_eq_of_lt hrr]
    unfold isqrtFix at hf
    by_cases hgt : arg < res * res
    · rw [if_pos hgt] at hf ⊢
      rw [hf, Nat.mod_eq_of_lt (by omega)]
    · have hle : res ≤ Nat.sqrt arg := Nat.le_sqrt.mpr (by omega)
      have h3 : (res + 1) * (res + 1) < 2 ^ 64 := by
        have : (res + 1) * (res + 1) ≤ 4294967295 * 4294967295 := Nat.mul_le_mul (by omega) (by omega)
        omega
      rw [if_neg hgt] at hf ⊢
      rw [Nat.mod_eq_of_lt h3]
      by_cases h4 : (res + 1) * (res + 1) ≤ arg
      · rw [if_pos h4] at hf ⊢; rw [hf, Nat.mod_eq_of_lt (by omega)]
      · rw [if_neg h4] at hf ⊢; rw [hf, Nat.mod_eq_of_lt (by omega)]

/-- C42, finding: above it the products wrap around and the result is 0 or 1. -/
theorem C42_isqrtU64_wrong (h : Dbl rnd) (arg : ℕ) (h1 : 4294967295 * 4294967295 + 2 ^ 14 ≤ arg) (h2 : arg < 2 ^ 64) :
    isqrtU64 rnd arg ≤ 1 := by
  have h50 : 2 ^ 50 ≤ arg := by omega
  have b2 := (isqrt32_large h h50 (by omega)).2 4294967295 h1
  have b1 := (isqrt32_large h h50 (by omega)).1
  have hs : Nat.sqrt arg < 4294967296 := Nat.sqrt_lt.mpr (by omega)
  unfold isqrtU64
  dsimp only
  rw [if_neg (by omega)]
  set res := isqrt32 rnd arg
  rcases (show res = 4294967295 ∨ res = 4294967296 by omega) with e | e
  · rw [e, if_neg (by omega), if_pos (by norm_num)]
    norm_num
  · rw [e, if_neg (by norm_num), if_pos (by norm_num; omega)]
    norm_num

/-- The hypotheses hold for IEEE doubles: the root of `10^18 + 1` is `10^9`, and `isqrt(INT64_MAX)` is undefined. -/
example : isqrt64 dbl (10 ^ 18 + 1) = ok (10 ^ 9) := by
  obtain ⟨n, h1, h2, h3⟩ := C42_isqrt64_partial dbl_ok (10 ^ 18 + 1) (by norm_num)
  have : n = 10 ^ 9 := by
    apply le_antisymm
    · by_contra hc; push Not at hc
      have : (10 ^ 9 + 1) * (10 ^ 9 + 1) ≤ n * n := Nat.mul_le_mul (by omega) (by omega)
      omega
    · by_contra hc; push Not at hc
      have : (n + 1) * (n + 1) ≤ 10 ^ 9 * 10 ^ 9 := Nat.mul_le_mul (by omega) (by omega)
      omega
  rw [h1, this]

example : (isqrt64 dbl (2 ^ 63 - 1)).IsUB := C42_isqrt64_overflow dbl_ok _ (by norm_num) (by norm_num)

/-- C42 as stated, for `isqrt` of 64 bit arguments in IEEE double arithmetic. -/
def C42_Full : Prop :=
  (∀ arg : ℕ, arg < 2 ^ 63 → ∃ n, isqrt64 dbl arg = ok n ∧ n * n ≤ arg ∧ arg < (n + 1) * (n + 1)) ∧
  (∀ arg : ℕ, arg < 2 ^ 64 → isqrtU64 dbl arg * isqrtU64 dbl arg ≤ arg ∧ arg < (isqrtU64 dbl arg + 1) * (isqrtU64 dbl arg + 1))

/-- Both halves fail, e.g. for the largest arguments. -/
theorem C42_full_refuted : ¬ C42_Full ∧ (isqrt64 dbl (2 ^ 63 - 1)).IsUB ∧ isqrtU64 dbl (2 ^ 64 - 1) ≤ 1 := by
  have h1 := C42_isqrt64_overflow dbl_ok (2 ^ 63 - 1) (by norm_num) (by norm_num)
  refine ⟨fun h => ?_, h1, C42_isqrtU64_wrong dbl_ok (2 ^ 64 - 1) (by norm_num) (by norm_num)⟩
  obtain ⟨n, hn, -⟩ := h.1 (2 ^ 63 - 1) (by norm_num)
  rw [hn] at h1
  exact h1

end Verif.Util
