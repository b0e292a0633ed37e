import Verif.Fft.Zeta
import Mathlib.Algebra.BigOperators.Intervals
import Mathlib.Data.Nat.Prime.Basic

/-! # The general butterfly -/

namespace Verif.Fft
open Verif Res Finset

theorem rdD {xs : List ℂ} {i : ℕ} (h : i < xs.length) : rd xs (i : ℤ) = ok (xs.getD i 0) := by
  rw [rd_nat h]; simp [List.getD, h]

theorem getD_set_self {xs : List ℂ} {i : ℕ} (v : ℂ) (h : i < xs.length) : (xs.set i v).getD i 0 = v := by
  simp [List.getD, h]

theorem getD_set_ne {xs : List ℂ} {i j : ℕ} (v : ℂ) (h : i ≠ j) : (xs.set i v).getD j 0 = xs.getD j 0 := by
  simp [List.getD, List.getElem?_set_ne h]

theorem sum_reflect (h : ℕ) (f : ℕ → ℂ) :
    ∑ m ∈ range (2 * h + 1), f m = f 0 + ∑ l ∈ range h, (f (l + 1) + f (2 * h + 1 - (l + 1))) := by
  rw [sum_range_succ', add_comm, show 2 * h = h + h by ring, sum_range_add, sum_add_distrib]
  congr 2
  rw [← sum_range_reflect]
  apply sum_congr rfl
  intro l hl
  rw [mem_range] at hl
  congr 1; omega

theorem gSums_spec (h : ℕ) (v : List ℂ) (hv : v.length = 2 * h + 1) :
    ∃ ccl s, gSums (2 * h + 1) v = ok (ccl, s) ∧ ccl.length = 2 * h + 1 ∧ ccl.getD 0 0 = v.getD 0 0 ∧
      (∀ l, 1 ≤ l → l ≤ h → ccl.getD l 0 = v.getD l 0 + v.getD (2 * h + 1 - l) 0 ∧
        ccl.getD (2 * h + 1 - l) 0 = v.getD l 0 - v.getD (2 * h + 1 - l) 0) ∧
      s = ∑ m ∈ range (2 * h + 1), v.getD m 0 := by
  have hh : (2 * h + 1 + 1) / 2 - 1 = h := by omega
  unfold gSums
  rw [hh, show (0 : ℤ) = ((0 : ℕ) : ℤ) by rfl, rdD (by omega), ok_bind, wr_nat _ (by simp), ok_bind]
  have := forN_inv h (fun j0 (st : List ℂ × ℂ) => do
      let a ← rd v ((j0 + 1 : ℕ) : ℤ)
      let b ← rd v ((2 * h + 1 - (j0 + 1) : ℕ) : ℤ)
      let ccl ← wr st.1 ((j0 + 1 : ℕ) : ℤ) (a + b)
      let ccl ← wr ccl ((2 * h + 1 - (j0 + 1) : ℕ) : ℤ) (a - b)
      ok (ccl, st.2 + (a + b))) ((List.replicate (2 * h + 1) 0).set 0 (v.getD 0 0), v.getD 0 0)
    (fun k st => st.1.length = 2 * h + 1 ∧ st.1.getD 0 0 = v.getD 0 0 ∧
      (∀ l, 1 ≤ l → l ≤ k → st.1.getD l 0 = v.getD l 0 + v.getD (2 * h + 1 - l) 0 ∧
        st.1.getD (2 * h + 1 - l) 0 = v.getD l 0 - v.getD (2 * h + 1 - l) 0) ∧
      st.2 = v.getD 0 0 + ∑ l ∈ range k, (v.getD (l + 1) 0 + v.getD (2 * h + 1 - (l + 1)) 0))
    ⟨by simp, getD_set_self _ (by simp), by omega, by simp⟩
    (by
      rintro k ⟨ccl, s⟩ hk ⟨h1, h2, h3, h4⟩
      dsimp only at h1 h2 h3 h4 ⊢
      rw [rdD (by omega), ok_bind, rdD (by omega), ok_bind, wr_nat _ (by omega), ok_bind,
        wr_nat _ (by rw [List.length_set]; omega), ok_bind]
      refine ⟨_, rfl, by simpa using h1, ?_, ?_, ?_⟩
      · dsimp only; rw [getD_set_ne _ (by omega), getD_set_ne _ (by omega), h2]
      · intro l hl1 hl2
        dsimp only
        rcases Nat.lt_or_ge l (k + 1) with hlt | hge
        · obtain ⟨p, q⟩ := h3 l hl1 (by omega)
          rw [getD_set_ne _ (by omega), getD_set_ne _ (by omega), getD_set_ne _ (by omega), getD_set_ne _ (by omega)]
          exact ⟨p, q⟩
        · obtain rfl : l = k + 1 := by omega
          rw [getD_set_ne _ (by omega), getD_set_self _ (by omega), getD_set_self _ (by rw [List.length_set]; omega)]
          exact ⟨rfl, rfl⟩
      · dsimp only; rw [h4, sum_range_succ]; ring)
  obtain ⟨⟨ccl, s⟩, hr, h1, h2, h3, h4⟩ := this
  refine ⟨ccl, s, hr, h1, h2, fun l a b => h3 l a b, ?_⟩
  rw [sum_reflect]; exact h4

theorem gInner_spec (h j : ℕ) (hp : Nat.Prime (2 * h + 1)) (hj : 1 ≤ j) (hj2 : j ≤ 2 * h) (ccl wal : List ℂ)
    (hc : ccl.length = 2 * h + 1) (hwl : wal.length = 2 * h) (hw : ∀ i < 2 * h, wal.getD i 0 = zeta (2 * h + 1) ((i + 1 : ℕ) : ℤ)) :
    ∃ a, gInner (2 * h + 1) j ccl wal = ok (a,
      ccl.getD 0 0 + ∑ l ∈ range h, ((zeta (2 * h + 1) ((l + 1 : ℕ) * (j : ℤ))).re : ℂ) * ccl.getD (l + 1) 0,
      ∑ l ∈ range h, ((zeta (2 * h + 1) ((l + 1 : ℕ) * (j : ℤ))).im : ℂ) * ccl.getD (2 * h + 1 - (l + 1)) 0) := by
  have hh : (2 * h + 1 + 1) / 2 - 1 = h := by omega
  unfold gInner
  rw [hh, show (0 : ℤ) = ((0 : ℕ) : ℤ) by rfl, rdD (by omega), ok_bind]
  have := forN_inv h (fun l0 (st : ℕ × ℂ × ℂ) => do
      let iang := st.1 + j
      let iang := if iang > 2 * h + 1 then iang - (2 * h + 1) else iang
      let w ← rd wal ((iang : ℤ) - 1)
      let p ← rd ccl ((l0 + 1 : ℕ) : ℤ)
      let q ← rd ccl ((2 * h + 1 - (l0 + 1) : ℕ) : ℤ)
      ok (iang, st.2.1 + (w.re : ℂ) * p, st.2.2 + (w.im : ℂ) * q)) (0, ccl.getD 0 0, 0)
    (fun k st => st.1 ≤ 2 * h ∧ (∃ q : ℕ, st.1 + (2 * h + 1) * q = k * j) ∧
      st.2.1 = ccl.getD 0 0 + ∑ l ∈ range k, ((zeta (2 * h + 1) ((l + 1 : ℕ) * (j : ℤ))).re : ℂ) * ccl.getD (l + 1) 0 ∧
      st.2.2 = ∑ l ∈ range k, ((zeta (2 * h + 1) ((l + 1 : ℕ) * (j : ℤ))).im : ℂ) * ccl.getD (2 * h + 1 - (l + 1)) 0)
    ⟨by simp, ⟨0, by simp⟩, by simp, by simp⟩
    (by
      rintro k ⟨ia, ar, ai⟩ hk ⟨h1, ⟨q, h2⟩, h3, h4⟩
      dsimp only at h1 h2 h3 h4 ⊢
      obtain ⟨ia', hia⟩ : ∃ x, x = (if ia + j > 2 * h + 1 then ia + j - (2 * h + 1) else ia + j) := ⟨_, rfl⟩
      rw [← hia]
      obtain ⟨q', hq'⟩ : ∃ q' : ℕ, ia' + (2 * h + 1) * q' = (k + 1) * j := by
        by_cases hc : ia + j > 2 * h + 1
        · rw [if_pos hc] at hia
          refine ⟨q + 1, ?_⟩
          rw [add_mul k 1 j, ← h2, mul_add]; omega
        · rw [if_neg hc] at hia
          refine ⟨q, ?_⟩
          rw [add_mul k 1 j, ← h2]; omega
      have hne : ia' ≠ 2 * h + 1 := by
        intro he
        have hd : (2 * h + 1) ∣ (k + 1) * j := ⟨1 + q', by rw [← hq', he]; ring⟩
        rcases (Nat.Prime.dvd_mul hp).mp hd with hd | hd
        · have := Nat.le_of_dvd (by omega) hd; omega
        · have := Nat.le_of_dvd (by omega) hd; omega
      have hpos : 1 ≤ ia' := by split at hia <;> omega
      have hle : ia' ≤ 2 * h := by split at hia <;> omega
      rw [show (ia' : ℤ) - 1 = ((ia' - 1 : ℕ) : ℤ) by omega, rdD (by omega), ok_bind, rdD (by omega), ok_bind, rdD (by omega), ok_bind,
        hw _ (by omega), show ia' - 1 + 1 = ia' by omega]
      have hz : zeta (2 * h + 1) (ia' : ℤ) = zeta (2 * h + 1) ((k + 1 : ℕ) * (j : ℤ)) := by
        symm
        apply zeta_mod (by omega) _ _ (q' : ℤ)
        exact_mod_cast hq'.symm
      rw [hz]
      refine ⟨_, rfl, hle, ⟨q', hq'⟩, ?_, ?_⟩
      · dsimp only; rw [h3, sum_range_succ]; ring
      · dsimp only; rw [h4, sum_range_succ])
  obtain ⟨⟨a, b, c⟩, hr, _, _, h3, h4⟩ := this
  refine ⟨a, ?_⟩
  rw [← h3, ← h4]
  exact hr

theorem zeta_re_im (n : ℕ) (t : ℤ) : ((zeta n t).re : ℂ) + Complex.I * ((zeta n t).im : ℂ) = zeta n t := by
  apply Complex.ext <;> simp

theorem zeta_re_im' (n : ℕ) (t : ℤ) : ((zeta n t).re : ℂ) - Complex.I * ((zeta n t).im : ℂ) = zeta n (-t) := by
  rw [← zeta_conj]; apply Complex.ext <;> simp

/-- Combination of the two partial sums. -/
theorem dft_pair (back : Bool) (h j : ℕ) (v : List ℂ) :
    dftAt back (2 * h + 1) v j =
      (v.getD 0 0 + ∑ l ∈ range h, ((zeta (2 * h + 1) ((l + 1 : ℕ) * (j : ℤ))).re : ℂ) * (v.getD (l + 1) 0 + v.getD (2 * h + 1 - (l + 1)) 0)) +
      (sg back : ℂ) * Complex.I * ∑ l ∈ range h, ((zeta (2 * h + 1) ((l + 1 : ℕ) * (j : ℤ))).im : ℂ) * (v.getD (l + 1) 0 - v.getD (2 * h + 1 - (l + 1)) 0) := by
  unfold dftAt
  rw [sum_reflect, mul_sum, add_assoc, ← sum_add_distrib]
  congr 1
  · simp
  apply sum_congr rfl
  intro l hl
  rw [mem_range] at hl
  have e : zeta (2 * h + 1) (sg back * (((2 * h + 1 - (l + 1) : ℕ) : ℤ) * j)) = zeta (2 * h + 1) (-(sg back * ((l + 1 : ℕ) * (j : ℤ)))) := by
    apply zeta_mod (by omega) _ _ (sg back * j)
    rw [Nat.cast_sub (by omega)]; push_cast; ring
  rw [e]
  generalize ((l + 1 : ℕ) : ℤ) * (j : ℤ) = t
  have a := zeta_re_im (2 * h + 1) t
  have b := zeta_re_im' (2 * h + 1) t
  generalize ((zeta (2 * h + 1) t).re : ℂ) = x at *
  generalize ((zeta (2 * h + 1) t).im : ℂ) = y at *
  cases back
  · rw [show -(sg false * t) = t by simp [sg], show sg false * t = -t by simp [sg], ← a, ← b]
    simp only [sg, Bool.false_eq_true, if_false]; push_cast; ring
  · rw [show -(sg true * t) = -t by simp [sg], show sg true * t = t by simp [sg], ← a, ← b]
    simp only [sg, if_true]; push_cast; ring

theorem dft_flip (back : Bool) (n j : ℕ) (hj : j ≤ n) (v : List ℂ) :
    dftAt back n v (n - j) = dftAt (!back) n v j := by
  unfold dftAt
  rcases Nat.eq_zero_or_pos n with rfl | hn
  · simp
  apply sum_congr rfl
  intro m _
  congr 1
  apply zeta_mod (by omega) _ _ (sg back * m)
  cases back <;> simp [sg] <;> push_cast [hj] <;> ring

theorem bfg_spec (back : Bool) (h : ℕ) (hh : 1 ≤ h) (hp : Nat.Prime (2 * h + 1)) (wal v : List ℂ) (hv : v.length = 2 * h + 1)
    (hwl : wal.length = 2 * h) (hw : ∀ i < 2 * h, wal.getD i 0 = zeta (2 * h + 1) ((i + 1 : ℕ) : ℤ)) :
    ∃ u, bfg back (2 * h + 1) wal v = ok u ∧ u.length = 2 * h + 1 ∧ ∀ j < 2 * h + 1, u.getD j 0 = dftAt back (2 * h + 1) v j := by
  obtain ⟨ccl, s, hg, hc, hc0, hcl, hs⟩ := gSums_spec h v hv
  unfold bfg
  rw [hg, ok_bind, show (0 : ℤ) = ((0 : ℕ) : ℤ) by rfl, wr_nat _ (by simp), ok_bind]
  have hR : ∀ j, 1 ≤ j → j ≤ 2 * h → ∃ r : ℕ × ℂ × ℂ, gInner (2 * h + 1) j ccl wal = ok r ∧
      ∀ b, dftAt b (2 * h + 1) v j = r.2.1 + (sg b : ℂ) * Complex.I * r.2.2 := by
    intro j h1 h2
    obtain ⟨a, ha⟩ := gInner_spec h j hp h1 h2 ccl wal hc hwl hw
    refine ⟨_, ha, fun b => ?_⟩
    rw [dft_pair]
    dsimp only
    rw [hc0]
    congr 2
    · apply sum_congr rfl; intro l hl; rw [mem_range] at hl; rw [(hcl (l + 1) (by omega) (by omega)).1]
    · apply sum_congr rfl; intro l hl; rw [mem_range] at hl; rw [(hcl (l + 1) (by omega) (by omega)).2]
  rw [show (2 * h + 1 + 1) / 2 = h + 1 by omega]
  have := forN_inv (h + 1) (fun j0 (out : List ℂ) => do
      let r ← gInner (2 * h + 1) (j0 + 1) ccl wal
      let abi := if back then r.2.2 else -r.2.2
      let abi := conjflip abi
      let out ← wr out ((j0 + 1 : ℕ) : ℤ) (r.2.1 + abi)
      wr out ((2 * h + 1 - (j0 + 1) : ℕ) : ℤ) (r.2.1 - abi)) ((List.replicate (2 * h + 1) 0).set 0 s)
    (fun k out => out.length = 2 * h + 1 ∧ out.getD 0 0 = dftAt back (2 * h + 1) v 0 ∧
      ∀ j, 1 ≤ j → j ≤ k → out.getD j 0 = dftAt back (2 * h + 1) v j ∧
        out.getD (2 * h + 1 - j) 0 = dftAt back (2 * h + 1) v (2 * h + 1 - j))
    ⟨by simp, by rw [getD_set_self _ (by simp), hs]; unfold dftAt; simp, by omega⟩
    (by
      rintro k out hk ⟨h1, h2, h3⟩
      obtain ⟨r, hr, hrs⟩ := hR (k + 1) (by omega) (by omega)
      rw [hr, ok_bind]
      dsimp only
      have e1 : r.2.1 + conjflip (if back = true then r.2.2 else -r.2.2) = dftAt back (2 * h + 1) v (k + 1) := by
        rw [hrs, conjflip_eq]; cases back <;> simp [sg]
      have e2 : r.2.1 - conjflip (if back = true then r.2.2 else -r.2.2) = dftAt back (2 * h + 1) v (2 * h + 1 - (k + 1)) := by
        rw [dft_flip _ _ _ (by omega), hrs, conjflip_eq]; cases back <;> simp [sg] <;> ring
      rw [e1, e2, wr_nat _ (by omega), ok_bind, wr_nat _ (by rw [List.length_set]; omega)]
      refine ⟨_, rfl, by simpa using h1, ?_, ?_⟩
      · rw [getD_set_ne _ (by omega), getD_set_ne _ (by omega), h2]
      · intro j hj1 hj2
        constructor
        · by_cases c1 : 2 * h + 1 - (k + 1) = j
          · rw [c1, getD_set_self _ (by rw [List.length_set]; omega)]
          rw [getD_set_ne _ c1]
          by_cases c2 : k + 1 = j
          · rw [c2, getD_set_self _ (by omega)]
          rw [getD_set_ne _ c2]; exact (h3 j hj1 (by omega)).1
        · by_cases c1 : k + 1 = j
          · rw [c1, getD_set_self _ (by rw [List.length_set]; omega)]
          rw [getD_set_ne _ (by omega)]
          by_cases c2 : k + 1 = 2 * h + 1 - j
          · rw [c2, getD_set_self _ (by omega)]
          rw [getD_set_ne _ c2]; exact (h3 j hj1 (by omega)).2)
  obtain ⟨u, hu, h1, h2, h3⟩ := this
  refine ⟨u, hu, h1, fun j hj => ?_⟩
  rcases Nat.eq_zero_or_pos j with rfl | hpos
  · exact h2
  by_cases hle : j ≤ h + 1
  · exact (h3 j hpos hle).1
  · have := (h3 (2 * h + 1 - j) (by omega) (by omega)).2
    rwa [show 2 * h + 1 - (2 * h + 1 - j) = j by omega] at this

end Verif.Fft
