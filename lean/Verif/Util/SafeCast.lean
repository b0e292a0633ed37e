import Verif.Py.Ctypes

/-!
# `safe_cast` (C70)

levels/cxxsupport/ls_safe_cast.h:39-91, for the integer types (all its instantiations in the library).  Conversion to an unsigned
type is modulo `2^w`; conversion to a signed type likewise (implementation-defined before C++20; this is what the supported
compilers do).
-/

namespace Verif.SafeCast

open Verif Res Verif.Ctypes

/-- An integer type: signedness and number of bits (`bits + 1`, so that there is at least one). -/
structure IntTy where
  sgn : Bool
  bits : ℕ
  deriving DecidableEq

/-- Conversion of an integer value to the type. -/
def IntTy.conv (t : IntTy) (n : ℤ) : ℤ := if t.sgn then wrap (t.bits + 1) n else (low (t.bits + 1) n : ℕ)

/-- The cast and the assertion of `safe_cast_helper__<T1,T2,true,true>` and `<T1,T2,false,false>`, ls_safe_cast.h:42-60. -/
def castSame (t1 t2 : IntTy) (arg : ℤ) : Res ℤ :=
  let res := t1.conv arg
  if t2.conv res = arg then ok res else throw "safe_cast: value changed during cast"

/-- `safe_cast_helper__<T1,T2,true,false>` (signed from unsigned), ls_safe_cast.h:62-71. -/
def castSU (t1 t2 : IntTy) (arg : ℤ) : Res ℤ :=
  let res := t1.conv arg
  if 0 ≤ res ∧ t2.conv res = arg then ok res else throw "safe_cast: value changed during cast"

/-- `safe_cast_helper__<T1,T2,false,true>` (unsigned from signed), ls_safe_cast.h:73-82. -/
def castUS (t1 t2 : IntTy) (arg : ℤ) : Res ℤ :=
  let res := t1.conv arg
  if 0 ≤ arg ∧ t2.conv res = arg then ok res else throw "safe_cast: value changed during cast"

/-- `safe_cast<T1>(arg)` with `arg` of type `T2`, ls_safe_cast.h:87-91: the helper is chosen by the two signednesses. -/
def safeCast (t1 t2 : IntTy) (arg : ℤ) : Res ℤ :=
  match t1.sgn, t2.sgn with
  | true, true => castSame t1 t2 arg
  | false, false => castSame t1 t2 arg
  | true, false => castSU t1 t2 arg
  | false, true => castUS t1 t2 arg

/-! ## Specification -/

/-- The values of a type. -/
def IntTy.Range (t : IntTy) (n : ℤ) : Prop :=
  if t.sgn then -2 ^ t.bits ≤ n ∧ n < 2 ^ t.bits else 0 ≤ n ∧ n < 2 ^ (t.bits + 1)

/-! ## Proof -/

theorem conv_range (t : IntTy) (n : ℤ) : t.Range (t.conv n) := by
  unfold IntTy.Range IntTy.conv
  split
  · exact ((wrap_spec t.bits n _).mp rfl).1
  · refine ⟨Int.natCast_nonneg _, ?_⟩
    exact_mod_cast low_lt (t.bits + 1) n

theorem conv_dvd (t : IntTy) (n : ℤ) : (2 : ℤ) ^ (t.bits + 1) ∣ n - t.conv n := by
  unfold IntTy.conv
  split
  · exact ((wrap_spec t.bits n _).mp rfl).2
  · unfold low
    rw [Int.toNat_of_nonneg (Int.emod_nonneg n (by positivity))]
    exact Int.dvd_self_sub_emod

theorem conv_eq (t : IntTy) {n : ℤ} (h : t.Range n) : t.conv n = n := by
  unfold IntTy.Range at h
  unfold IntTy.conv
  split at h
  · rename_i hs
    rw [if_pos hs]
    exact wrap_eq _ h
  · rename_i hs
    rw [if_neg hs]
    exact ((low_eq_iff _ _).mpr h).symm

/-- Two values in an interval of length `2^w` that differ by a multiple of `2^w` are equal. -/
theorem eq_of_dvd {a b L : ℤ} (h0 : L ∣ a - b) (h1 : a - b < L) (h2 : b - a < L) : a = b := by
  by_contra hne
  have hpos : 0 < |a - b| := abs_pos.mpr (sub_ne_zero.mpr hne)
  have := Int.le_of_dvd hpos ((dvd_abs _ _).mpr h0)
  have : |a - b| < L := abs_lt.mpr ⟨by linarith, h1⟩
  linarith

/-- C70: for every pair of integer types and every value of the source type, `safe_cast` returns that very value if the
target type can hold it, and throws otherwise. -/
theorem C70_safe_cast (t1 t2 : IntTy) (n : ℤ) (hn : t2.Range n) :
    (t1.Range n → safeCast t1 t2 n = ok n) ∧ (¬t1.Range n → (safeCast t1 t2 n).IsThrow) := by
  have e2 := conv_eq t2 hn
  constructor
  · intro h
    have e1 := conv_eq t1 h
    unfold safeCast castSame castSU castUS
    simp only [e1, e2]
    split
    · exact if_pos trivial
    · exact if_pos trivial
    · rename_i hs hs2
      unfold IntTy.Range at hn
      rw [hs2] at hn
      exact if_pos ⟨hn.1, trivial⟩
    · rename_i hs hs2
      unfold IntTy.Range at h
      rw [hs] at h
      exact if_pos ⟨h.1, trivial⟩
  · intro h
    have r1 := conv_range t1 n
    have d1 := conv_dvd t1 n
    -- the converted value differs from the argument
    have hne : t1.conv n ≠ n := fun e => h (e ▸ r1)
    have k1 : (0 : ℤ) < 2 ^ t1.bits := by positivity
    have p1 : (2 : ℤ) ^ (t1.bits + 1) = 2 * 2 ^ t1.bits := by rw [pow_succ]; ring
    have k2 : (0 : ℤ) < 2 ^ t2.bits := by positivity
    have p2 : (2 : ℤ) ^ (t2.bits + 1) = 2 * 2 ^ t2.bits := by rw [pow_succ]; ring
    -- converting back cannot restore it
    have back : ∀ b : Prop, (b → t2.Range (t1.conv n)) → b → t2.conv (t1.conv n) ≠ n := by
      intro b hb hb' e
      rw [conv_eq t2 (hb hb')] at e
      exact hne e
    have d2 := conv_dvd t2 (t1.conv n)
    have thr : ∀ {p : Prop} [Decidable p] {x : ℤ}, ¬p →
        (if p then ok x else throw "safe_cast: value changed during cast" : Res ℤ).IsThrow := by
      intro p _ x hp
      rw [if_neg hp]
      trivial
    unfold IntTy.Range at hn r1 h
    unfold safeCast castSame castSU castUS
    split
    · -- both signed
      rename_i h1 h2
      rw [h1] at r1 h
      rw [h2] at hn
      simp only [if_true] at r1 h hn
      apply thr
      intro e
      rw [e] at d2
      by_cases hle : t2.bits ≤ t1.bits
      · have : (2 : ℤ) ^ t2.bits ≤ 2 ^ t1.bits := pow_le_pow_right₀ (by norm_num) hle
        exact h ⟨by linarith [hn.1], by linarith [hn.2]⟩
      · have : (2 : ℤ) ^ t1.bits ≤ 2 ^ t2.bits := pow_le_pow_right₀ (by norm_num) (by omega)
        exact hne (eq_of_dvd d2 (by linarith [hn.1, hn.2, r1.1, r1.2]) (by linarith [hn.1, hn.2, r1.1, r1.2]))
    · rename_i h1 h2
      rw [h1] at r1 h
      rw [h2] at hn
      simp only [Bool.false_eq_true, if_false] at r1 h hn
      apply thr
      intro e
      rw [e] at d2
      by_cases hle : t2.bits ≤ t1.bits
      · have : (2 : ℤ) ^ (t2.bits + 1) ≤ 2 ^ (t1.bits + 1) := pow_le_pow_right₀ (by norm_num) (by omega)
        exact h ⟨hn.1, by linarith [hn.2]⟩
      · have : (2 : ℤ) ^ (t1.bits + 1) ≤ 2 ^ (t2.bits + 1) := pow_le_pow_right₀ (by norm_num) (by omega)
        exact hne (eq_of_dvd d2 (by linarith [hn.1, hn.2, r1.1, r1.2]) (by linarith [hn.1, hn.2, r1.1, r1.2]))
    · -- signed from unsigned
      rename_i h1 h2
      rw [h1] at r1 h
      rw [h2] at hn
      simp only [Bool.false_eq_true, if_false, if_true] at r1 h hn
      apply thr
      rintro ⟨e0, e⟩
      rw [e] at d2
      by_cases hle : t2.bits < t1.bits
      · have : (2 : ℤ) ^ (t2.bits + 1) ≤ 2 ^ t1.bits := pow_le_pow_right₀ (by norm_num) (by omega)
        exact h ⟨by linarith [hn.1], by linarith [hn.2]⟩
      · have : (2 : ℤ) ^ t1.bits ≤ 2 ^ t2.bits := pow_le_pow_right₀ (by norm_num) (by omega)
        exact hne (eq_of_dvd d2 (by linarith [hn.1, hn.2, r1.1, r1.2]) (by linarith [hn.1, hn.2, r1.1, r1.2]))
    · -- unsigned from signed
      rename_i h1 h2
      rw [h1] at r1 h
      rw [h2] at hn
      simp only [Bool.false_eq_true, if_false, if_true] at r1 h hn
      apply thr
      rintro ⟨e0, e⟩
      rw [e] at d2
      by_cases hle : t2.bits ≤ t1.bits + 1
      · have : (2 : ℤ) ^ t2.bits ≤ 2 ^ (t1.bits + 1) := pow_le_pow_right₀ (by norm_num) hle
        exact h ⟨e0, by linarith [hn.2]⟩
      · have : (2 : ℤ) ^ (t1.bits + 1) ≤ 2 ^ t2.bits := pow_le_pow_right₀ (by norm_num) (by omega)
        exact hne (eq_of_dvd d2 (by linarith [hn.1, hn.2, r1.1, r1.2]) (by linarith [hn.1, hn.2, r1.1, r1.2]))

/-- C70: the number of rows of a table (a signed 64 bit number) as the reader of coefficients obtains it
(alm_fitsio.cc:53 and :99): the number itself below `2^31`, an exception from there on. -/
theorem C70_rows (n : ℤ) (h0 : 0 ≤ n) (h1 : n < 2 ^ 63) :
    (n < 2 ^ 31 → safeCast ⟨true, 31⟩ ⟨true, 63⟩ n = ok n) ∧ (2 ^ 31 ≤ n → (safeCast ⟨true, 31⟩ ⟨true, 63⟩ n).IsThrow) := by
  have q1 : (-2 ^ 63 : ℤ) ≤ n := by linarith
  have q2 : (-2 ^ 31 : ℤ) ≤ n := by linarith
  have hr : IntTy.Range ⟨true, 63⟩ n := ⟨q1, h1⟩
  obtain ⟨a, b⟩ := C70_safe_cast ⟨true, 31⟩ ⟨true, 63⟩ n hr
  refine ⟨fun h => a ⟨q2, h⟩, fun h => b ?_⟩
  rintro ⟨-, h2⟩
  simp only at h2
  linarith

/-- C70: an array dimension from a file header (signed 64 bit) as the readers of images obtain it (fitshandle.cc:750-764,
ls_fitshandle.h:237): a negative one throws, any other one is exact. -/
theorem C70_dims (n : ℤ) (h0 : -2 ^ 63 ≤ n) (h1 : n < 2 ^ 63) :
    (0 ≤ n → safeCast ⟨false, 63⟩ ⟨true, 63⟩ n = ok n) ∧ (n < 0 → (safeCast ⟨false, 63⟩ ⟨true, 63⟩ n).IsThrow) := by
  obtain ⟨a, b⟩ := C70_safe_cast ⟨false, 63⟩ ⟨true, 63⟩ n ⟨h0, h1⟩
  refine ⟨fun h => a ⟨h, ?_⟩, fun h => b ?_⟩
  · show n < 2 ^ 64
    linarith
  · rintro ⟨h2, -⟩
    linarith

/-- Both outcomes occur for each of the four combinations of signedness. -/
example : IntTy.Range ⟨true, 63⟩ (2 ^ 31) ∧ ¬IntTy.Range ⟨true, 31⟩ (2 ^ 31) ∧ IntTy.Range ⟨false, 63⟩ (2 ^ 63) ∧
    ¬IntTy.Range ⟨true, 63⟩ (2 ^ 63) ∧ IntTy.Range ⟨true, 31⟩ (-1) ∧ ¬IntTy.Range ⟨false, 63⟩ (-1) ∧
    IntTy.Range ⟨false, 63⟩ (2 ^ 32) ∧ ¬IntTy.Range ⟨false, 31⟩ (2 ^ 32) ∧ IntTy.Range ⟨false, 31⟩ 5 ∧ IntTy.Range ⟨true, 7⟩ 5 := by
  simp only [IntTy.Range]; norm_num

end Verif.SafeCast
