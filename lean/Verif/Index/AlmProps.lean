import Verif.Index.Alm
import Mathlib.Data.Set.Function
import Mathlib.Order.Interval.Set.Basic

/-! # C24: a_lm storage is a bijection -/

namespace Verif.Harm
open Verif Res

/-- C24: for all `0 ≤ mmax ≤ lmax` the map `(l,m) ↦ index` is a bijection from the
coefficients `{0 ≤ m ≤ mmax, m ≤ l ≤ lmax}` onto `[0, Num_Alms)`. -/
theorem C24_index_bijection (lmax mmax : Int) (h0 : 0 ≤ mmax) (h : mmax ≤ lmax) :
    ∃ n, numAlms lmax mmax = ok n ∧
      Set.BijOn (fun p : Int × Int => index lmax p.1 p.2)
        {p | 0 ≤ p.2 ∧ p.2 ≤ mmax ∧ p.2 ≤ p.1 ∧ p.1 ≤ lmax} (Set.Ico 0 n) := by
  refine ⟨_, numAlms_eq h, ?_, ?_, ?_⟩
  · rintro ⟨l, m⟩ hv
    exact ⟨index_nonneg hv.1 hv.2.2.1 hv.2.2.2, index_lt h hv⟩
  · rintro ⟨l, m⟩ hv ⟨l', m'⟩ hv' e
    obtain ⟨rfl, rfl⟩ := index_inj h hv hv' e
    rfl
  · rintro i ⟨hi0, hi1⟩
    obtain ⟨k, rfl⟩ := Int.eq_ofNat_of_zero_le h0
    obtain ⟨l, m, hv, e⟩ := index_surj k h i hi0 hi1
    exact ⟨(l, m), hv, e⟩

example : (0 : Int) ≤ 2 ∧ (2 : Int) ≤ 3 ∧ numAlms 3 2 = ok 9 ∧ index 3 3 2 = 8 := by decide

/-- C24: construction with `mmax > lmax` is rejected with an exception. -/
theorem C24_mmax_gt_lmax_throws (lmax mmax : Int) (h : lmax < mmax) :
    (numAlms lmax mmax).IsThrow := by
  unfold numAlms; rw [if_neg (by omega)]; trivial

/-- C24: storing a coefficient in a well-formed expansion never leaves the buffer, is read
back, and leaves every other coefficient unchanged. -/
theorem C24_put_get {α : Type} (a : Alm α) (ha : a.WF) (l m : Int) (v : α)
    (hv : Valid a.lmax a.mmax l m) :
    ∃ b, a.put l m v = ok b ∧ b.WF ∧ b.lmax = a.lmax ∧ b.mmax = a.mmax ∧ b.get l m = ok v ∧
      ∀ l' m', Valid a.lmax a.mmax l' m' → (l', m') ≠ (l, m) → b.get l' m' = a.get l' m' := by
  have hp := a.put_ok ha hv v
  have hw := Alm.put_wf ha hp
  exact ⟨_, hp, hw.1, hw.2.1, hw.2.2, Alm.get_put_same hp,
    fun l' m' hv' hne => Alm.get_put_other ha hv hv' (fun e => hne e.symm) hp⟩

/-- non-vacuity: an expansion with lmax 3, mmax 2 -/
example : ∃ a : Alm Int, mkZero 0 3 2 = ok a ∧ a.WF ∧ Valid a.lmax a.mmax 3 1 ∧
    a.alm.length = 9 := by
  refine ⟨_, rfl, ?_, ?_, rfl⟩
  · decide
  · unfold Valid; decide

end Verif.Harm
