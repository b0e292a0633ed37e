import Verif.Fft.RealProps

/-! # C83: storage formats and plans for real data -/

namespace Verif.Fft
open Verif Res Finset

/-! ## packed and half complex -/

theorem packed_zero (X : ℕ → ℂ) : packed X 0 = (X 0).re := by unfold packed; rw [if_pos rfl]

theorem packed_re (X : ℕ → ℂ) {k : ℕ} (h : 0 < k) : packed X (2 * k - 1) = (X k).re := by
  unfold packed
  rw [if_neg (by omega), if_pos (by omega), show (2 * k - 1 + 1) / 2 = k by omega]

theorem packed_im (X : ℕ → ℂ) {k : ℕ} (h : 0 < k) : packed X (2 * k) = (X k).im := by
  unfold packed
  rw [if_neg (by omega), if_neg (by omega), show 2 * k / 2 = k by omega]

theorem half_lo {n : ℕ} (X : ℕ → ℂ) {j : ℕ} (h : 2 * j ≤ n) : half n X j = (X j).re := by unfold half; rw [if_pos h]

theorem half_hi {n : ℕ} (X : ℕ → ℂ) {j : ℕ} (h : n < 2 * j) : half n X j = (X (n - j)).im := by
  unfold half; rw [if_neg (by omega)]

theorem fresh_tab (junk : ℕ → ℝ) (n : ℕ) : fresh junk n = tab n junk := rfl

theorem copy_all {n : ℕ} (g h : ℕ → ℝ) : copyTo (tab n g) 0 (tab n h) 0 n = ok (tab n h) := by
  rw [copyTo_tab (by omega) (by omega)]
  congr 1
  apply tab_congr
  intro j hj
  rw [if_pos (by omega)]
  congr 1
  omega

theorem toHalf_tab {n : ℕ} (h1 : 1 ≤ n) (junk : ℕ → ℝ) (X : ℕ → ℂ) :
    toHalf n junk (tab n (packed X)) = ok (tab n (half n X)) := by
  unfold toHalf
  rw [show (0 : ℤ) = ((0 : ℕ) : ℤ) from rfl, rd_tab (by omega), ok_bind, fresh_tab, wr_tab _ (by omega), ok_bind]
  rw [forN_tab' (L := n) ((n + 1) / 2 - 1) _
    (fun i j => if j ≤ i ∨ n ≤ j + i then half n X j else junk j) (fun j hj => ?_) (fun i hi => ?_), ok_bind]
  · split_ifs with he
    · rw [rd_tab (by omega), ok_bind, wr_tab _ (by omega), ok_bind, ← copy_all (packed X)]
      congr 1
      apply tab_congr
      intro j hj
      simp only [Function.update_apply]
      by_cases hc : j = n / 2
      · rw [if_pos hc, half_lo X (by omega), hc, show n - 1 = 2 * (n / 2) - 1 by omega, packed_re X (by omega)]
      · rw [if_neg hc, if_pos (by omega)]
    · rw [ok_bind, ← copy_all (packed X)]
      congr 1
      apply tab_congr
      intro j hj
      rw [if_pos (by omega)]
  · simp only [Function.update_apply]
    by_cases hc : j = 0
    · rw [if_pos hc, if_pos (show j ≤ 0 ∨ n ≤ j + 0 by omega), hc, half_lo X (by omega), packed_zero]
    · rw [if_neg hc, if_neg (show ¬(j ≤ 0 ∨ n ≤ j + 0) by omega)]
  · rw [rd_tab (by omega), ok_bind, wr_tab _ (by omega), ok_bind, rd_tab (by omega), ok_bind, wr_tab _ (by omega)]
    congr 1
    apply tab_congr
    intro j hj
    rw [packed_re X (by omega), packed_im X (by omega), Function.update_apply, Function.update_apply]
    by_cases c1 : j = n - (i + 1)
    · rw [if_pos c1, if_pos (show j ≤ i + 1 ∨ n ≤ j + (i + 1) by omega), half_hi X (by omega), show n - j = i + 1 by omega]
    · rw [if_neg c1]
      by_cases c2 : j = i + 1
      · rw [if_pos c2, if_pos (show j ≤ i + 1 ∨ n ≤ j + (i + 1) by omega), half_lo X (by omega), c2]
      · rw [if_neg c2]
        by_cases c3 : j ≤ i ∨ n ≤ j + i
        · rw [if_pos c3, if_pos (by omega)]
        · rw [if_neg c3, if_neg (by omega)]

theorem fromHalf_tab {n : ℕ} (h1 : 1 ≤ n) (junk : ℕ → ℝ) (X : ℕ → ℂ) :
    fromHalf n junk (tab n (half n X)) = ok (tab n (packed X)) := by
  unfold fromHalf
  rw [show (0 : ℤ) = ((0 : ℕ) : ℤ) from rfl, rd_tab (by omega), ok_bind, fresh_tab, wr_tab _ (by omega), ok_bind]
  rw [forN_tab' (L := n) ((n + 1) / 2 - 1) _
    (fun i j => if j ≤ 2 * i then packed X j else junk j) (fun j hj => ?_) (fun i hi => ?_), ok_bind]
  · split_ifs with he
    · rw [rd_tab (by omega), ok_bind, wr_tab _ (by omega), ok_bind, ← copy_all (half n X)]
      congr 1
      apply tab_congr
      intro j hj
      simp only [Function.update_apply]
      by_cases hc : j = n - 1
      · rw [if_pos hc, half_lo X (by omega), hc, show n - 1 = 2 * (n / 2) - 1 by omega, packed_re X (by omega)]
      · rw [if_neg hc, if_pos (by omega)]
    · rw [ok_bind, ← copy_all (half n X)]
      congr 1
      apply tab_congr
      intro j hj
      rw [if_pos (by omega)]
  · simp only [Function.update_apply]
    by_cases hc : j = 0
    · rw [if_pos hc, if_pos (show j ≤ 2 * 0 by omega), hc, half_lo X (by omega), packed_zero]
    · rw [if_neg hc, if_neg (show ¬(j ≤ 2 * 0) by omega)]
  · rw [rd_tab (by omega), ok_bind, wr_tab _ (by omega), ok_bind, rd_tab (by omega), ok_bind, wr_tab _ (by omega)]
    congr 1
    apply tab_congr
    intro j hj
    rw [half_lo X (show 2 * (i + 1) ≤ n by omega), half_hi X (show n < 2 * (n - (i + 1)) by omega),
      show n - (n - (i + 1)) = i + 1 by omega, Function.update_apply, Function.update_apply]
    by_cases c1 : j = 2 * (i + 1)
    · rw [if_pos c1, if_pos (show j ≤ 2 * (i + 1) by omega), c1, packed_im X (by omega)]
    · rw [if_neg c1]
      by_cases c2 : j = 2 * (i + 1) - 1
      · rw [if_pos c2, if_pos (show j ≤ 2 * (i + 1) by omega), c2, packed_re X (by omega)]
      · rw [if_neg c2]
        by_cases c3 : j ≤ 2 * i
        · rw [if_pos c3, if_pos (by omega)]
        · rw [if_neg c3, if_neg (by omega)]

/-- Every buffer is the packed format of something. -/
theorem packed_surj (g : ℕ → ℝ) : ∃ X, packed X = g := by
  refine ⟨fun k => if k = 0 then ⟨g 0, 0⟩ else ⟨g (2 * k - 1), g (2 * k)⟩, ?_⟩
  funext j
  unfold packed
  by_cases h0 : j = 0
  · rw [if_pos h0, h0]; dsimp only; rw [if_pos rfl]
  · rw [if_neg h0]
    by_cases h : j % 2 = 1
    · rw [if_pos h]; dsimp only; rw [if_neg (by omega)]
      change g (2 * ((j + 1) / 2) - 1) = g j
      congr 1; omega
    · rw [if_neg h]; dsimp only; rw [if_neg (by omega)]
      change g (2 * (j / 2)) = g j
      congr 1; omega

/-! ## fftpack format -/

variable {p : RPlan}

theorem forwardFftpack_tab (hp : p.OK) (junk x : ℕ → ℝ) :
    forwardFftpack p junk (tab p.n x) = ok (tab p.n (packed (spec p.n x))) := by
  have h1 := hp.pos
  have hH : Herm p.n (spec p.n x) := herm_dft h1 x
  unfold forwardFftpack
  cases hb : p.blue with
  | true =>
    rw [if_pos rfl, fresh_tab]
    rw [forN_tab' (L := 2 * p.n) p.n _ (fun i j => if j < 2 * i then inter (fun j => (x j : ℂ)) j else junk j) (fun j hj => by
      rw [if_neg (show ¬(j < 2 * 0) by omega)]) (fun i hi => ?_), ok_bind, blueOn_tab hp hb false (fun j => (x j : ℂ)) (fun j hj => ?_), ok_bind]
    · rw [show (0 : ℤ) = ((0 : ℕ) : ℤ) from rfl, rd_tab (by omega), ok_bind, wr_tab _ (by omega), ok_bind,
        copyTo_tab (by omega) (by omega)]
      congr 1
      apply tab_congr
      intro j hj
      change (if 1 ≤ j ∧ j < 1 + (p.n - 1) then inter (spec p.n x) (2 + (j - 1)) else
        Function.update x 0 (inter (spec p.n x) (2 * 0)) j) = _
      by_cases h0 : j = 0
      · rw [if_neg (by omega), h0, Function.update_self, inter_even, packed_zero]
      · rw [if_pos (by omega)]
        rcases Nat.even_or_odd' j with ⟨k, hk | hk⟩
        · rw [show 2 + (j - 1) = 2 * k + 1 by omega, inter_odd, hk, packed_im _ (by omega)]
        · rw [show 2 + (j - 1) = 2 * (k + 1) by omega, inter_even, show j = 2 * (k + 1) - 1 by omega, packed_re _ (by omega)]
    · rw [if_pos hj]
    · rw [rd_tab hi, ok_bind, wr_tab _ (by omega), ok_bind, wr_tab _ (by omega)]
      congr 1
      apply tab_congr
      intro j hj
      rw [Function.update_apply, Function.update_apply]
      by_cases c1 : j = 2 * i + 1
      · rw [if_pos c1, if_pos (by omega), c1, inter_odd]; simp
      · rw [if_neg c1]
        by_cases c2 : j = 2 * i
        · rw [if_pos c2, if_pos (by omega), c2, inter_even]; simp
        · rw [if_neg c2]
          by_cases c3 : j < 2 * i
          · rw [if_pos c3, if_pos (by omega)]
          · rw [if_neg c3, if_neg (by omega)]
  | false =>
    rw [if_neg (by simp), realOn_tab (r := packed (spec p.n x)) (by omega) (by
      rw [show tab p.n (packed (spec p.n x)) = tab p.n (packed (dftEntry false p.n (fun j => (x j : ℂ)))) from rfl, ← hp.rf hb x]
      congr 1
      apply tab_congr
      intro j hj
      rw [Nat.zero_add])]
    congr 1
    apply tab_congr
    intro j hj
    rw [if_pos (by omega), Nat.sub_zero]

theorem backwardFftpack_tab (hp : p.OK) (junk : ℕ → ℝ) {X : ℕ → ℂ} (hX : Herm p.n X) :
    backwardFftpack p junk (tab p.n (packed X)) = ok (tab p.n (fun j => (dftEntry true p.n X j).re)) := by
  have h1 := hp.pos
  unfold backwardFftpack
  cases hb : p.blue with
  | true =>
    have key : ∀ g : ℕ → ℝ, (∀ j < 2 * p.n, (j ≤ p.n ∨ (p.n % 2 = 0 ∧ j = p.n + 1)) → g j = inter X j) →
        (do
          let tmp ← forN ((p.n - 1) / 2) (fun i tmp => do
            let m := 2 * i + 2
            let v ← rd tmp ((m : ℕ) : ℤ)
            let tmp ← wr tmp ((2 * p.n - m : ℕ) : ℤ) v
            let v ← rd tmp ((m + 1 : ℕ) : ℤ)
            wr tmp ((2 * p.n - m + 1 : ℕ) : ℤ) (-v)) (tab (2 * p.n) g)
          let tmp ← blueOn p true tmp
          forN p.n (fun m data => do
            let v ← rd tmp ((2 * m : ℕ) : ℤ)
            wr data (m : ℤ) v) (tab p.n (packed X))) = ok (tab p.n (fun j => (dftEntry true p.n X j).re)) := by
      intro g hg
      rw [forN_tab' (L := 2 * p.n) ((p.n - 1) / 2) _
        (fun i j => if j ≤ p.n ∨ (p.n % 2 = 0 ∧ j = p.n + 1) ∨ 2 * p.n ≤ j + 2 * i then inter X j else g j)
        (fun j hj => ?_) (fun i hi => ?_), ok_bind, blueOn_tab hp hb true X (fun j hj => ?_), ok_bind]
      · rw [forN_tab' (L := p.n) p.n _ (fun i j => if j < i then (dftEntry true p.n X j).re else packed X j)
          (fun j hj => by rw [if_neg (show ¬(j < 0) by omega)]) (fun i hi => ?_)]
        · congr 1
          apply tab_congr
          intro j hj
          rw [if_pos hj]
        · rw [rd_tab (by omega), ok_bind, wr_tab _ hi]
          congr 1
          apply tab_congr
          intro j hj
          rw [Function.update_apply]
          by_cases c1 : j = i
          · rw [if_pos c1, if_pos (by omega), inter_even, c1]
          · rw [if_neg c1]
            by_cases c3 : j < i
            · rw [if_pos c3, if_pos (by omega)]
            · rw [if_neg c3, if_neg (by omega)]
      · rw [if_pos (by omega)]
      · by_cases c : j ≤ p.n ∨ (p.n % 2 = 0 ∧ j = p.n + 1)
        · rw [if_pos (by omega)]
          exact hg j hj c
        · rw [if_neg (show ¬(j ≤ p.n ∨ (p.n % 2 = 0 ∧ j = p.n + 1) ∨ 2 * p.n ≤ j + 2 * 0) by omega)]
      · have hm : 2 * i + 2 ≤ p.n - 1 := by omega
        dsimp only
        rw [rd_tab (by omega), ok_bind, wr_tab _ (by omega), ok_bind, rd_tab (by omega), ok_bind, wr_tab _ (by omega)]
        congr 1
        apply tab_congr
        intro j hj
        simp only [Function.update_apply]
        rw [if_pos (show 2 * i + 2 ≤ p.n ∨ _ by omega), if_neg (show ¬(2 * i + 2 + 1 = 2 * p.n - (2 * i + 2)) by omega),
          if_pos (show 2 * i + 2 + 1 ≤ p.n ∨ _ by omega)]
        by_cases c1 : j = 2 * p.n - (2 * i + 2) + 1
        · rw [if_pos c1, if_pos (by omega), c1, show 2 * i + 2 + 1 = 2 * (i + 1) + 1 by ring, inter_odd,
            show 2 * p.n - (2 * i + 2) + 1 = 2 * (p.n - (i + 1)) + 1 by omega, inter_odd]
          exact (hX.im (by omega) (by omega)).symm
        · rw [if_neg c1]
          by_cases c2 : j = 2 * p.n - (2 * i + 2)
          · rw [if_pos c2, if_pos (by omega), c2, show 2 * i + 2 = 2 * (i + 1) by ring, inter_even,
              show 2 * p.n - 2 * (i + 1) = 2 * (p.n - (i + 1)) by omega, inter_even]
            exact (hX.re (by omega) (by omega)).symm
          · rw [if_neg c2]
            by_cases c3 : j ≤ p.n ∨ (p.n % 2 = 0 ∧ j = p.n + 1) ∨ 2 * p.n ≤ j + 2 * i
            · rw [if_pos c3, if_pos (by omega)]
            · rw [if_neg c3, if_neg (by omega)]
    rw [if_pos rfl, show (0 : ℤ) = ((0 : ℕ) : ℤ) from rfl, show (1 : ℤ) = ((1 : ℕ) : ℤ) from rfl, rd_tab (by omega), ok_bind,
      fresh_tab, wr_tab _ (by omega), ok_bind, wr_tab _ (by omega), ok_bind, copyTo_tab (by omega) (by omega), ok_bind]
    have hlow : ∀ j, j ≤ p.n → (if 2 ≤ j ∧ j < 2 + (p.n - 1) then packed X (1 + (j - 2)) else
        Function.update (Function.update junk 0 (packed X 0)) 1 0 j) = inter X j := by
      intro j hj
      by_cases h0 : j = 0
      · rw [if_neg (by omega), h0, Function.update_of_ne (by omega), Function.update_self, packed_zero,
          show (0 : ℕ) = 2 * 0 from rfl, inter_even]
      by_cases h01 : j = 1
      · rw [if_neg (by omega), h01, Function.update_self, show (1 : ℕ) = 2 * 0 + 1 from rfl, inter_odd, hX.zero]
      rw [if_pos (by omega)]
      rcases Nat.even_or_odd' j with ⟨k, hk | hk⟩
      · rw [show 1 + (j - 2) = 2 * k - 1 by omega, packed_re _ (by omega), hk, inter_even]
      · rw [show 1 + (j - 2) = 2 * k by omega, packed_im _ (by omega), hk, inter_odd]
    split_ifs with he
    · rw [wr_tab _ (by omega), ok_bind]
      refine key _ (fun j hj hc => ?_)
      rcases hc with hc | hc
      · rw [Function.update_of_ne (by omega)]
        exact hlow j hc
      · rw [hc.2, Function.update_self, show p.n + 1 = 2 * (p.n / 2) + 1 by omega, inter_odd, hX.mid h1 he]
    · rw [ok_bind]
      exact key _ (fun j hj hc => hlow j (by omega))
  | false =>
    rw [if_neg (by simp), realOn_tab (r := fun j => (dftEntry true p.n X j).re) (by omega) (by
      rw [← hp.rb hb X hX]
      congr 1
      apply tab_congr
      intro j hj
      rw [Nat.zero_add])]
    congr 1
    apply tab_congr
    intro j hj
    rw [if_pos (by omega), Nat.sub_zero]

end Verif.Fft
