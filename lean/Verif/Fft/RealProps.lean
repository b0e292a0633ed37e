import Verif.Fft.Real

/-! # C83: real transforms, proofs -/

namespace Verif.Fft
open Verif Res Finset

/-! ## spectra -/

theorem dftEntry_congr (back : Bool) (n : ℕ) {x y : ℕ → ℂ} (h : ∀ j < n, x j = y j) (k : ℕ) :
    dftEntry back n x k = dftEntry back n y k := by
  unfold dftEntry
  exact sum_congr rfl (fun j hj => by rw [h j (mem_range.mp hj)])

theorem herm_dft {n : ℕ} (h1 : 1 ≤ n) (x : ℕ → ℝ) : Herm n (dftEntry false n (fun j => (x j : ℂ))) := by
  have hn : n ≠ 0 := by omega
  constructor
  · unfold dftEntry
    simp only [Nat.cast_zero, zero_mul, mul_zero, zeta_zero, mul_one]
    rw [← Complex.ofReal_sum]
    exact Complex.ofReal_im _
  · intro k h0 hk
    unfold dftEntry
    rw [map_sum]
    refine sum_congr rfl (fun j _ => ?_)
    rw [map_mul, Complex.conj_ofReal, zeta_conj]
    congr 1
    refine zeta_mod hn _ _ (-j) ?_
    simp only [sg]
    rw [Nat.cast_sub hk.le]
    simp
    ring

theorem dft_real {n : ℕ} (h1 : 1 ≤ n) {X : ℕ → ℂ} (hX : Herm n X) (k : ℕ) : (dftEntry true n X k).im = 0 := by
  have hn : n ≠ 0 := by omega
  rw [← Complex.conj_eq_iff_im]
  obtain ⟨m, rfl⟩ : ∃ m, n = m + 1 := ⟨n - 1, by omega⟩
  unfold dftEntry
  rw [map_sum, sum_range_succ', sum_range_succ' (fun j => X j * zeta (m + 1) (sg true * (k * j)))]
  congr 1
  · rw [← sum_range_reflect (fun j => X (j + 1) * zeta (m + 1) (sg true * (k * ((j + 1 : ℕ) : ℤ))))]
    refine sum_congr rfl (fun j hj => ?_)
    have hj := mem_range.mp hj
    have := hX.sym (j + 1) (by omega) (by omega)
    rw [map_mul, ← this, zeta_conj]
    rw [show m - 1 - j + 1 = m + 1 - (j + 1) by omega]
    congr 1
    refine zeta_mod hn _ _ (-k) ?_
    rw [Nat.cast_sub (by omega)]
    simp only [sg]
    push_cast
    ring
  · have := hX.zero
    rw [map_mul, Complex.conj_eq_iff_im.mpr this]
    simp

/-! ## loops -/

theorem forN_tab' {L : ℕ} (n : ℕ) (body : ℕ → List ℝ → Res (List ℝ)) (G : ℕ → ℕ → ℝ) {g : ℕ → ℝ} (h0 : ∀ j < L, g j = G 0 j)
    (h : ∀ i < n, body i (tab L (G i)) = ok (tab L (G (i + 1)))) : forN n body (tab L g) = ok (tab L (G n)) := by
  rw [tab_congr h0]
  exact forN_tab n body G h

theorem clearIm_tab (n : ℕ) (g : ℕ → ℝ) :
    clearIm n (tab (2 * n) g) = ok (tab (2 * n) (fun j => if j % 2 = 1 then 0 else g j)) := by
  unfold clearIm
  rw [forN_tab' (L := 2 * n) n _ (fun i j => if j % 2 = 1 ∧ j < 2 * i then 0 else g j) (fun j hj => by simp) (fun i hi => ?_)]
  · congr 1
    apply tab_congr
    intro j hj
    by_cases h : j % 2 = 1
    · rw [if_pos ⟨h, hj⟩, if_pos h]
    · rw [if_neg (fun h' => h h'.1), if_neg h]
  · rw [wr_tab _ (by omega)]
    congr 1
    apply tab_congr
    intro j hj
    simp only [Function.update_apply]
    split_ifs <;> first | rfl | omega

theorem inter_even (X : ℕ → ℂ) (k : ℕ) : inter X (2 * k) = (X k).re := by
  unfold inter; rw [if_pos (by omega), show 2 * k / 2 = k by omega]

theorem inter_odd (X : ℕ → ℂ) (k : ℕ) : inter X (2 * k + 1) = (X k).im := by
  unfold inter; rw [if_neg (by omega), show (2 * k + 1) / 2 = k by omega]

theorem Herm.re {n : ℕ} {X : ℕ → ℂ} (h : Herm n X) {k : ℕ} (h0 : 0 < k) (hk : k < n) : (X (n - k)).re = (X k).re := by
  rw [h.sym k h0 hk, Complex.conj_re]

theorem Herm.im {n : ℕ} {X : ℕ → ℂ} (h : Herm n X) {k : ℕ} (h0 : 0 < k) (hk : k < n) : (X (n - k)).im = -(X k).im := by
  rw [h.sym k h0 hk, Complex.conj_im]

theorem Herm.mid {n : ℕ} {X : ℕ → ℂ} (h : Herm n X) (h1 : 1 ≤ n) (he : n % 2 = 0) : (X (n / 2)).im = 0 := by
  have := h.im (k := n / 2) (by omega) (by omega)
  rw [show n - n / 2 = n / 2 by omega] at this
  linarith

theorem symmetrise_tab {n : ℕ} (h1 : 1 ≤ n) {X : ℕ → ℂ} (hX : Herm n X) {g : ℕ → ℝ} (hg : ∀ j < 2 * n, g j = inter X j) :
    symmetrise n (tab (2 * n) g) = ok (tab (2 * n) (inter X)) := by
  unfold symmetrise
  rw [forN_tab' (L := 2 * n) ((n - 1) / 2) _ (fun _ => inter X) hg (fun i hi => ?_)]
  · rw [ok_bind]
    split_ifs with he
    · rw [wr_tab _ (by omega)]
      congr 1
      apply tab_congr
      intro j hj
      simp only [Function.update_apply]
      split_ifs with hc
      · rw [hc, show n + 1 = 2 * (n / 2) + 1 by omega, inter_odd, hX.mid h1 he]
      · rfl
    · rfl
  · have e1 : inter X (2 * n - (2 * i + 2)) = (X (i + 1)).re := by
      rw [show 2 * n - (2 * i + 2) = 2 * (n - (i + 1)) by omega, inter_even, hX.re (by omega) (by omega)]
    have e2 : inter X (2 * i + 2) = (X (i + 1)).re := by rw [show 2 * i + 2 = 2 * (i + 1) by ring, inter_even]
    have e3 : inter X (2 * n - (2 * i + 2) + 1) = -(X (i + 1)).im := by
      rw [show 2 * n - (2 * i + 2) = 2 * (n - (i + 1)) by omega, inter_odd, hX.im (by omega) (by omega)]
    have e4 : inter X (2 * i + 2 + 1) = (X (i + 1)).im := by rw [show 2 * i + 2 + 1 = 2 * (i + 1) + 1 by ring, inter_odd]
    dsimp only
    rw [rd_tab (by omega), ok_bind, rd_tab (by omega), ok_bind, wr_tab _ (by omega), ok_bind, wr_tab _ (by omega), ok_bind,
      rd_tab (by omega), ok_bind, rd_tab (by omega), ok_bind, wr_tab _ (by omega), ok_bind, wr_tab _ (by omega)]
    congr 1
    apply tab_congr
    intro j hj
    have n1 : ¬(2 * n - (2 * i + 2) + 1 = 2 * n - (2 * i + 2)) := by omega
    have n2 : ¬(2 * n - (2 * i + 2) + 1 = 2 * i + 2) := by omega
    have n3 : ¬(2 * i + 2 + 1 = 2 * n - (2 * i + 2)) := by omega
    have n4 : ¬(2 * i + 2 + 1 = 2 * i + 2) := by omega
    simp only [Function.update_apply, if_neg n1, if_neg n2, if_neg n3, if_neg n4, e1, e2, e3, e4]
    split_ifs with c1 c2 c3 c4
    · rw [c1, e4]; norm_num; ring
    · rw [c2, e3]; norm_num; ring
    · rw [c3, e1]; norm_num; ring
    · rw [c4, e2]; norm_num; ring
    · rfl

/-! ## the functions -/

variable {p : RPlan}

/-- The spectrum of real data. -/
noncomputable def spec (n : ℕ) (x : ℕ → ℝ) : ℕ → ℂ := dftEntry false n (fun j => (x j : ℂ))

theorem forwardC_tab (hp : p.OK) (x : ℕ → ℝ) (d : ℕ → ℝ) (hd : ∀ k < p.n, d (2 * k) = x k) :
    forwardC p (tab (2 * p.n) d) = ok (tab (2 * p.n) (inter (spec p.n x))) := by
  have h1 := hp.pos
  have hH : Herm p.n (spec p.n x) := herm_dft h1 x
  unfold forwardC
  cases hb : p.blue with
  | true =>
    rw [if_pos rfl, clearIm_tab, ok_bind, blueOn_tab hp hb false (fun j => (x j : ℂ)) (fun j hj => ?_), ok_bind]
    · rw [show (1 : ℤ) = ((1 : ℕ) : ℤ) from rfl, wr_tab _ (by omega), ok_bind]
      refine symmetrise_tab h1 hH (fun j hj => ?_)
      simp only [Function.update_apply]
      split_ifs with hc
      · subst hc
        rw [show (1 : ℕ) = 2 * 0 + 1 from rfl, inter_odd, hH.zero]
      · rfl
    · split_ifs with hc
      · rw [show j = 2 * (j / 2) + 1 by omega, inter_odd]; simp
      · rw [show j = 2 * (j / 2) by omega, inter_even, hd _ (by omega)]; simp
  | false =>
    rw [if_neg (by simp)]
    rw [forN_tab' (L := 2 * p.n) p.n _ (fun i j => if 1 ≤ j ∧ j ≤ i then x (j - 1) else d j) (fun j hj => by
      rw [if_neg (by omega)]) (fun i hi => ?_), ok_bind]
    · rw [realOn_tab (r := packed (spec p.n x)) (by omega) (by
        rw [show tab p.n (packed (spec p.n x)) = tab p.n (packed (dftEntry false p.n (fun j => (x j : ℂ)))) from rfl, ← hp.rf hb x]
        congr 1
        apply tab_congr
        intro j hj
        rw [if_pos (by omega)]
        congr 1; omega), ok_bind]
      rw [show (1 : ℤ) = ((1 : ℕ) : ℤ) from rfl, show (0 : ℤ) = ((0 : ℕ) : ℤ) from rfl, rd_tab (by omega), ok_bind,
        wr_tab _ (by omega), ok_bind, wr_tab _ (by omega), ok_bind]
      have hev : ∀ k, 0 < k → 2 * k ≤ p.n → packed (spec p.n x) (2 * k - 1) = (spec p.n x k).re := by
        intro k h0 hk
        unfold packed
        rw [if_neg (by omega), if_pos (by omega), show (2 * k - 1 + 1) / 2 = k by omega]
      have hod : ∀ k, 0 < k → packed (spec p.n x) (2 * k) = (spec p.n x k).im := by
        intro k h0
        unfold packed
        rw [if_neg (by omega), if_neg (by omega), show (2 * k) / 2 = k by omega]
      have h0p : packed (spec p.n x) 0 = (spec p.n x 0).re := by unfold packed; rw [if_pos rfl]
      rw [forN_tab' (L := 2 * p.n) ((p.n - 1) / 2) _
        (fun i j => if j ≤ p.n ∨ 2 * p.n ≤ j + 2 * i then inter (spec p.n x) j else d j) (fun j hj => ?_) (fun i hi => ?_), ok_bind]
      · split_ifs with he
        · rw [wr_tab _ (by omega)]
          congr 1
          apply tab_congr
          intro j hj
          simp only [Function.update_apply]
          split_ifs with hc hc'
          · rw [hc, show p.n + 1 = 2 * (p.n / 2) + 1 by omega, inter_odd, hH.mid h1 he]
          · rfl
          · omega
        · congr 1
          apply tab_congr
          intro j hj
          rw [if_pos (by omega)]
      · by_cases hj1 : j ≤ p.n
        · rw [if_pos (Or.inl hj1)]
          simp only [Function.update_apply]
          by_cases hj0 : j = 1
          · rw [if_pos hj0, hj0, show (1 : ℕ) = 2 * 0 + 1 from rfl, inter_odd]
            exact hH.zero.symm ▸ rfl
          · rw [if_neg hj0]
            by_cases hjz : j = 0
            · rw [if_pos hjz, if_pos (by omega), hjz, show (1 : ℕ) - 1 = 0 from rfl, h0p, show (0 : ℕ) = 2 * 0 from rfl, inter_even]
            · rw [if_neg hjz, if_pos (by omega)]
              rcases Nat.even_or_odd' j with ⟨k, hk | hk⟩
              · rw [hk, hev k (by omega) (by omega), inter_even]
              · rw [hk, show 2 * k + 1 - 1 = 2 * k by omega, hod k (by omega), inter_odd]
        · rw [if_neg (show ¬(j ≤ p.n ∨ 2 * p.n ≤ j + 2 * 0) by omega)]
          simp only [Function.update_apply]
          rw [if_neg (by omega), if_neg (by omega), if_neg (by omega), if_neg (by omega)]
      · dsimp only
        have hm : 2 * i + 2 ≤ p.n - 1 := by omega
        rw [rd_tab (by omega), ok_bind, wr_tab _ (by omega), ok_bind, rd_tab (by omega), ok_bind, wr_tab _ (by omega)]
        congr 1
        apply tab_congr
        intro j hj
        simp only [Function.update_apply]
        rw [if_pos (show 2 * i + 2 ≤ p.n ∨ _ by omega), if_neg (show ¬(2 * i + 2 + 1 = 2 * p.n - (2 * i + 2)) by omega),
          if_pos (show 2 * i + 2 + 1 ≤ p.n ∨ _ by omega)]
        by_cases c1 : j = 2 * p.n - (2 * i + 2) + 1
        · rw [if_pos c1, if_pos (by omega), c1, show 2 * i + 2 + 1 = 2 * (i + 1) + 1 by ring, inter_odd,
            show 2 * p.n - (2 * i + 2) + 1 = 2 * (p.n - (i + 1)) + 1 by omega, inter_odd]
          exact (hH.im (by omega) (by omega)).symm
        · rw [if_neg c1]
          by_cases c2 : j = 2 * p.n - (2 * i + 2)
          · rw [if_pos c2, if_pos (by omega), c2, show 2 * i + 2 = 2 * (i + 1) by ring, inter_even,
              show 2 * p.n - 2 * (i + 1) = 2 * (p.n - (i + 1)) by omega, inter_even]
            exact (hH.re (by omega) (by omega)).symm
          · rw [if_neg c2]
            by_cases c3 : j ≤ p.n ∨ 2 * p.n ≤ j + 2 * i
            · rw [if_pos c3, if_pos (by omega)]
            · rw [if_neg c3, if_neg (by omega)]
    · rw [rd_tab (by omega), ok_bind, wr_tab _ (by omega)]
      congr 1
      apply tab_congr
      intro j hj
      simp only [Function.update_apply]
      by_cases c1 : j = i + 1
      · rw [if_pos c1, if_neg (show ¬(1 ≤ i + i ∧ i + i ≤ i) by omega), if_pos (show 1 ≤ j ∧ j ≤ i + 1 by omega), c1,
          show i + i = 2 * i by ring, hd i hi]
        rfl
      · rw [if_neg c1]
        by_cases c2 : 1 ≤ j ∧ j ≤ i
        · rw [if_pos c2, if_pos (by omega)]
        · rw [if_neg c2, if_neg (by omega)]

/-- Backward, interleaved. -/
theorem backwardC_tab (hp : p.OK) {X : ℕ → ℂ} (hX : Herm p.n X) :
    backwardC p (tab (2 * p.n) (inter X)) = ok (tab (2 * p.n) (fun j => if j % 2 = 1 then 0 else (dftEntry true p.n X (j / 2)).re)) := by
  have h1 := hp.pos
  unfold backwardC
  cases hb : p.blue with
  | true =>
    rw [if_pos rfl, show (1 : ℤ) = ((1 : ℕ) : ℤ) from rfl, wr_tab _ (by omega), ok_bind, symmetrise_tab h1 hX (fun j hj => ?_), ok_bind,
      blueOn_tab hp hb true X (fun j hj => rfl), ok_bind, clearIm_tab]
    · congr 1
      apply tab_congr
      intro j hj
      split_ifs with hc
      · rfl
      · unfold inter; rw [if_pos (by omega)]
    · simp only [Function.update_apply]
      split_ifs with hc
      · rw [hc, show (1 : ℕ) = 2 * 0 + 1 from rfl, inter_odd, hX.zero]
      · rfl
  | false =>
    rw [if_neg (by simp), show (0 : ℤ) = ((0 : ℕ) : ℤ) from rfl, show (1 : ℤ) = ((1 : ℕ) : ℤ) from rfl, rd_tab (by omega), ok_bind,
      wr_tab _ (by omega), ok_bind, realOn_tab (r := fun j => (dftEntry true p.n X j).re) (by omega) ?_, ok_bind]
    · rw [forN_tab' (L := 2 * p.n) p.n _ (fun i j => if 2 * p.n ≤ j + 2 * i then
          (if j % 2 = 1 then 0 else (dftEntry true p.n X (j / 2)).re) else
          if 1 ≤ j ∧ j < 1 + p.n then (dftEntry true p.n X (j - 1)).re else Function.update (inter X) 1 (inter X 0) j) (fun j hj => by
          rw [if_neg (show ¬(2 * p.n ≤ j + 2 * 0) by omega)]) (fun i hi => ?_)]
      · congr 1
        apply tab_congr
        intro j hj
        rw [if_pos (by omega)]
      · dsimp only
        rw [rd_tab (by omega), ok_bind, wr_tab _ (by omega), ok_bind, wr_tab _ (by omega)]
        congr 1
        apply tab_congr
        intro j hj
        rw [Function.update_apply, Function.update_apply]
        by_cases c1 : j = 2 * (p.n - 1 - i) + 1
        · rw [if_pos c1, if_pos (by omega), if_pos (by omega)]
        · rw [if_neg c1]
          by_cases c2 : j = 2 * (p.n - 1 - i)
          · rw [if_pos c2, if_neg (by omega), if_pos (by omega), if_pos (by omega), if_neg (by omega), c2]
            rw [show p.n - 1 - i + 1 - 1 = p.n - 1 - i by omega, show 2 * (p.n - 1 - i) / 2 = p.n - 1 - i by omega]
          · rw [if_neg c2]
            by_cases c3 : 2 * p.n ≤ j + 2 * i
            · rw [if_pos c3, if_pos (show 2 * p.n ≤ j + 2 * (i + 1) by omega)]
            · rw [if_neg c3, if_neg (by omega : ¬ 2 * p.n ≤ j + 2 * (i + 1))]
    · rw [← hp.rb hb X hX]
      congr 1
      apply tab_congr
      intro j hj
      simp only [Function.update_apply]
      unfold packed
      by_cases hj0 : j = 0
      · rw [if_pos (by omega), if_pos hj0, show (0 : ℕ) = 2 * 0 from rfl, inter_even]
      · rw [if_neg (by omega), if_neg hj0]
        split_ifs with hc
        · rw [show 1 + j = 2 * ((j + 1) / 2) by omega, inter_even]
        · rw [show 1 + j = 2 * (j / 2) + 1 by omega, inter_odd]

end Verif.Fft
