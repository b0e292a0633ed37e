import Verif.Fft.RBfly

/-! # Rounding errors of the general butterfly -/

namespace Verif.Fft
open Verif Res Finset
open Verif.Num (Near)

theorem sum_reflectR (h : ℕ) (f : ℕ → ℝ) :
    ∑ m ∈ range (2 * h + 1), f m = f 0 + ∑ l ∈ range h, (f (l + 1) + f (2 * h + 1 - (l + 1))) := by
  rw [sum_range_succ', add_comm, show 2 * h = h + h by ring, sum_range_add, sum_add_distrib]
  congr 2
  rw [← sum_range_reflect]
  apply sum_congr rfl
  intro l hl
  rw [mem_range] at hl
  congr 1; omega

theorem norm_zeta (n : ℕ) (t : ℤ) : ‖zeta n t‖ = 1 := by
  unfold zeta
  rw [show 2 * (Real.pi : ℂ) * Complex.I * t / n = ((2 * Real.pi * t / n : ℝ) : ℂ) * Complex.I by push_cast; ring]
  exact Complex.norm_exp_ofReal_mul_I _

section
variable {f : FA} {u κ : ℝ} (A : FAcc f u κ)
include A

theorem gSumsR_spec (h : ℕ) (v : List ℂ) (hv : v.length = 2 * h + 1) :
    ∃ ccl s, gSumsR f (2 * h + 1) v = ok (ccl, s) ∧ ccl.length = 2 * h + 1 ∧ ccl.getD 0 0 = v.getD 0 0 ∧
      (∀ l, 1 ≤ l → l ≤ h →
        Near (rho u κ ^ 1) (ccl.getD l 0) (v.getD l 0 + v.getD (2 * h + 1 - l) 0) (‖v.getD l 0‖ + ‖v.getD (2 * h + 1 - l) 0‖) ∧
        Near (rho u κ ^ 1) (ccl.getD (2 * h + 1 - l) 0) (v.getD l 0 - v.getD (2 * h + 1 - l) 0) (‖v.getD l 0‖ + ‖v.getD (2 * h + 1 - l) 0‖)) ∧
      Near (rho u κ ^ (h + 1)) s (∑ m ∈ range (2 * h + 1), v.getD m 0) (∑ m ∈ range (2 * h + 1), ‖v.getD m 0‖) := by
  have hh : (2 * h + 1 + 1) / 2 - 1 = h := by omega
  unfold gSumsR
  rw [hh, show (0 : ℤ) = ((0 : ℕ) : ℤ) by rfl, rdD (by omega), ok_bind, wr_nat _ (by simp), ok_bind]
  have := forN_inv h (fun j0 (st : List ℂ × ℂ) => do
      let a ← rd v ((j0 + 1 : ℕ) : ℤ)
      let b ← rd v ((2 * h + 1 - (j0 + 1) : ℕ) : ℤ)
      let ccl ← wr st.1 ((j0 + 1 : ℕ) : ℤ) (f.add a b)
      let ccl ← wr ccl ((2 * h + 1 - (j0 + 1) : ℕ) : ℤ) (f.sub a b)
      ok (ccl, f.add st.2 (f.add a b))) ((List.replicate (2 * h + 1) 0).set 0 (v.getD 0 0), v.getD 0 0)
    (fun k st => st.1.length = 2 * h + 1 ∧ st.1.getD 0 0 = v.getD 0 0 ∧
      (∀ l, 1 ≤ l → l ≤ k →
        Near (rho u κ ^ 1) (st.1.getD l 0) (v.getD l 0 + v.getD (2 * h + 1 - l) 0) (‖v.getD l 0‖ + ‖v.getD (2 * h + 1 - l) 0‖) ∧
        Near (rho u κ ^ 1) (st.1.getD (2 * h + 1 - l) 0) (v.getD l 0 - v.getD (2 * h + 1 - l) 0) (‖v.getD l 0‖ + ‖v.getD (2 * h + 1 - l) 0‖)) ∧
      Near (rho u κ ^ (k + 1)) st.2 (v.getD 0 0 + ∑ l ∈ range k, (v.getD (l + 1) 0 + v.getD (2 * h + 1 - (l + 1)) 0))
        (‖v.getD 0 0‖ + ∑ l ∈ range k, (‖v.getD (l + 1) 0‖ + ‖v.getD (2 * h + 1 - (l + 1)) 0‖)))
    ⟨by simp, getD_set_self _ (by simp), by omega, by
      rw [sum_range_zero, sum_range_zero, add_zero, add_zero]; exact nearP A (by omega) (near0 _)⟩
    (by
      rintro k ⟨ccl, s⟩ hk ⟨h1, h2, h3, h4⟩
      dsimp only at h1 h2 h3 h4 ⊢
      rw [rdD (by omega), ok_bind, rdD (by omega), ok_bind, wr_nat _ (by omega), ok_bind,
        wr_nat _ (by rw [List.length_set]; omega), ok_bind]
      refine ⟨_, rfl, by simpa using h1, ?_, ?_, ?_⟩
      · dsimp only; rw [getD_set_ne _ (by omega), getD_set_ne _ (by omega), h2]
      · intro l hl1 hl2
        dsimp only
        rcases Nat.lt_or_ge l (k + 1) with hlt | hge
        · obtain ⟨p, q⟩ := h3 l hl1 (by omega)
          rw [getD_set_ne _ (by omega), getD_set_ne _ (by omega), getD_set_ne _ (by omega), getD_set_ne _ (by omega)]
          exact ⟨p, q⟩
        · obtain rfl : l = k + 1 := by omega
          rw [getD_set_ne _ (by omega), getD_set_self _ (by omega), getD_set_self _ (by rw [List.length_set]; omega)]
          exact ⟨add_step A (k := 0) (k' := 0) le_rfl le_rfl (near0 _) (near0 _), sub_step A (k := 0) (k' := 0) le_rfl le_rfl (near0 _) (near0 _)⟩
      · dsimp only
        have := add_step A (k := k + 1) (k' := 1) (m := k + 1 + 1) le_rfl (by omega) h4
          (add_step A (k := 0) (k' := 0) le_rfl le_rfl (near0 (v.getD (k + 1) 0)) (near0 (v.getD (2 * h + 1 - (k + 1)) 0)))
        rw [sum_range_succ, sum_range_succ]
        simpa only [add_assoc] using this)
  obtain ⟨⟨ccl, s⟩, hr, h1, h2, h3, h4⟩ := this
  refine ⟨ccl, s, hr, h1, h2, fun l a b => h3 l a b, ?_⟩
  rw [sum_reflect, sum_reflectR]; exact h4

theorem gInnerR_spec (h j : ℕ) (hp : Nat.Prime (2 * h + 1)) (hj : 1 ≤ j) (hj2 : j ≤ 2 * h) (ccl wal v : List ℂ)
    (hc : ccl.length = 2 * h + 1) (hwl : wal.length = 2 * h)
    (hw : ∀ i < 2 * h, ‖wal.getD i 0 - zeta (2 * h + 1) ((i + 1 : ℕ) : ℤ)‖ ≤ tabErr u κ)
    (hc0 : ccl.getD 0 0 = v.getD 0 0)
    (hcl : ∀ l, 1 ≤ l → l ≤ h →
        Near (rho u κ ^ 1) (ccl.getD l 0) (v.getD l 0 + v.getD (2 * h + 1 - l) 0) (‖v.getD l 0‖ + ‖v.getD (2 * h + 1 - l) 0‖) ∧
        Near (rho u κ ^ 1) (ccl.getD (2 * h + 1 - l) 0) (v.getD l 0 - v.getD (2 * h + 1 - l) 0) (‖v.getD l 0‖ + ‖v.getD (2 * h + 1 - l) 0‖)) :
    ∃ a x y, gInnerR f (2 * h + 1) j ccl wal = ok (a, x, y) ∧
      Near (rho u κ ^ (h + 2)) x
        (v.getD 0 0 + ∑ l ∈ range h, ((zeta (2 * h + 1) ((l + 1 : ℕ) * (j : ℤ))).re : ℂ) * (v.getD (l + 1) 0 + v.getD (2 * h + 1 - (l + 1)) 0))
        (∑ m ∈ range (2 * h + 1), ‖v.getD m 0‖) ∧
      Near (rho u κ ^ (h + 2)) y
        (∑ l ∈ range h, ((zeta (2 * h + 1) ((l + 1 : ℕ) * (j : ℤ))).im : ℂ) * (v.getD (l + 1) 0 - v.getD (2 * h + 1 - (l + 1)) 0))
        (∑ m ∈ range (2 * h + 1), ‖v.getD m 0‖) := by
  have hh : (2 * h + 1 + 1) / 2 - 1 = h := by omega
  unfold gInnerR
  rw [hh, show (0 : ℤ) = ((0 : ℕ) : ℤ) by rfl, rdD (by omega), ok_bind]
  have := forN_inv h (fun l0 (st : ℕ × ℂ × ℂ) => do
      let iang := st.1 + j
      let iang := if iang > 2 * h + 1 then iang - (2 * h + 1) else iang
      let w ← rd wal ((iang : ℤ) - 1)
      let p ← rd ccl ((l0 + 1 : ℕ) : ℤ)
      let q ← rd ccl ((2 * h + 1 - (l0 + 1) : ℕ) : ℤ)
      ok (iang, f.add st.2.1 (f.scl w.re p), f.add st.2.2 (f.scl w.im q))) (0, ccl.getD 0 0, 0)
    (fun k st => st.1 ≤ 2 * h ∧ (∃ q : ℕ, st.1 + (2 * h + 1) * q = k * j) ∧
      Near (rho u κ ^ (k + 2)) st.2.1
        (v.getD 0 0 + ∑ l ∈ range k, ((zeta (2 * h + 1) ((l + 1 : ℕ) * (j : ℤ))).re : ℂ) * (v.getD (l + 1) 0 + v.getD (2 * h + 1 - (l + 1)) 0))
        (‖v.getD 0 0‖ + ∑ l ∈ range k, (‖v.getD (l + 1) 0‖ + ‖v.getD (2 * h + 1 - (l + 1)) 0‖)) ∧
      Near (rho u κ ^ (k + 2)) st.2.2
        (∑ l ∈ range k, ((zeta (2 * h + 1) ((l + 1 : ℕ) * (j : ℤ))).im : ℂ) * (v.getD (l + 1) 0 - v.getD (2 * h + 1 - (l + 1)) 0))
        (∑ l ∈ range k, (‖v.getD (l + 1) 0‖ + ‖v.getD (2 * h + 1 - (l + 1)) 0‖)))
    ⟨by simp, ⟨0, by simp⟩, by
      rw [sum_range_zero, sum_range_zero, add_zero, add_zero, hc0]; exact nearP A (by omega) (near0 _), by
      rw [sum_range_zero, sum_range_zero]; simpa using nearP A (m := 0 + 2) (by omega) (near0 (u := u) (κ := κ) 0)⟩
    (by
      rintro k ⟨ia, ar, ai⟩ hk ⟨h1, ⟨q, h2⟩, h3, h4⟩
      dsimp only at h1 h2 h3 h4 ⊢
      obtain ⟨ia', hia⟩ : ∃ x, x = (if ia + j > 2 * h + 1 then ia + j - (2 * h + 1) else ia + j) := ⟨_, rfl⟩
      rw [← hia]
      obtain ⟨q', hq'⟩ : ∃ q' : ℕ, ia' + (2 * h + 1) * q' = (k + 1) * j := by
        by_cases hc : ia + j > 2 * h + 1
        · rw [if_pos hc] at hia
          refine ⟨q + 1, ?_⟩
          rw [add_mul k 1 j, ← h2, mul_add]; omega
        · rw [if_neg hc] at hia
          refine ⟨q, ?_⟩
          rw [add_mul k 1 j, ← h2]; omega
      have hne : ia' ≠ 2 * h + 1 := by
        intro he
        have hd : (2 * h + 1) ∣ (k + 1) * j := ⟨1 + q', by rw [← hq', he]; ring⟩
        rcases (Nat.Prime.dvd_mul hp).mp hd with hd | hd
        · have := Nat.le_of_dvd (by omega) hd; omega
        · have := Nat.le_of_dvd (by omega) hd; omega
      have hpos : 1 ≤ ia' := by split at hia <;> omega
      have hle : ia' ≤ 2 * h := by split at hia <;> omega
      rw [show (ia' : ℤ) - 1 = ((ia' - 1 : ℕ) : ℤ) by omega, rdD (by omega), ok_bind, rdD (by omega), ok_bind, rdD (by omega), ok_bind]
      have hW := hw (ia' - 1) (by omega)
      rw [show ia' - 1 + 1 = ia' by omega] at hW
      have hz : zeta (2 * h + 1) (ia' : ℤ) = zeta (2 * h + 1) ((k + 1 : ℕ) * (j : ℤ)) := by
        symm
        apply zeta_mod (by omega) _ _ (q' : ℤ)
        exact_mod_cast hq'.symm
      rw [hz] at hW
      have wr' := (Complex.abs_re_le_norm _).trans hW
      have wi' := (Complex.abs_im_le_norm _).trans hW
      rw [Complex.sub_re] at wr'
      rw [Complex.sub_im] at wi'
      have nz := norm_zeta (2 * h + 1) ((k + 1 : ℕ) * (j : ℤ))
      have zr := (Complex.abs_re_le_norm (zeta (2 * h + 1) ((k + 1 : ℕ) * (j : ℤ)))).trans nz.le
      have zi := (Complex.abs_im_le_norm (zeta (2 * h + 1) ((k + 1 : ℕ) * (j : ℤ)))).trans nz.le
      obtain ⟨p1, p2⟩ := hcl (k + 1) (by omega) (by omega)
      refine ⟨_, rfl, hle, ⟨q', hq'⟩, ?_, ?_⟩
      · dsimp only; rw [sum_range_succ, sum_range_succ, ← add_assoc, ← add_assoc]
        exact add_step A (k := k + 2) (k' := 2) (by omega) (by omega) h3 (scl_step A (k := 1) le_rfl wr' zr p1)
      · dsimp only; rw [sum_range_succ, sum_range_succ]
        exact add_step A (k := k + 2) (k' := 2) (by omega) (by omega) h4 (scl_step A (k := 1) le_rfl wi' zi p2))
  obtain ⟨⟨a, b, c⟩, hr, _, _, h3, h4⟩ := this
  refine ⟨a, b, c, hr, ?_, ?_⟩
  · rw [sum_reflectR]; exact h3
  · refine h4.mono le_rfl ?_
    rw [sum_reflectR]; exact le_add_of_nonneg_left (norm_nonneg _)

theorem bfgR_spec (back : Bool) (h : ℕ) (hh : 1 ≤ h) (hp : Nat.Prime (2 * h + 1)) (wal v : List ℂ) (hv : v.length = 2 * h + 1)
    (hwl : wal.length = 2 * h) (hw : ∀ i < 2 * h, ‖wal.getD i 0 - zeta (2 * h + 1) ((i + 1 : ℕ) : ℤ)‖ ≤ tabErr u κ) :
    ∃ r, bfgR f back (2 * h + 1) wal v = ok r ∧ r.length = 2 * h + 1 ∧ ∀ j < 2 * h + 1,
      Near (rho u κ ^ (h + 3)) (r.getD j 0) (dftAt back (2 * h + 1) v j) (2 * ∑ m ∈ range (2 * h + 1), ‖v.getD m 0‖) := by
  obtain ⟨ccl, s, hg, hc, hc0, hcl, hs⟩ := gSumsR_spec A h v hv
  have S0 : 0 ≤ ∑ m ∈ range (2 * h + 1), ‖v.getD m 0‖ := sum_nonneg fun _ _ => norm_nonneg _
  unfold bfgR
  rw [hg, ok_bind, show (0 : ℤ) = ((0 : ℕ) : ℤ) by rfl, wr_nat _ (by simp), ok_bind]
  have hR : ∀ j, 1 ≤ j → j ≤ 2 * h → ∃ r : ℕ × ℂ × ℂ, gInnerR f (2 * h + 1) j ccl wal = ok r ∧ ∃ X Y : ℂ,
      Near (rho u κ ^ (h + 2)) r.2.1 X (∑ m ∈ range (2 * h + 1), ‖v.getD m 0‖) ∧
      Near (rho u κ ^ (h + 2)) r.2.2 Y (∑ m ∈ range (2 * h + 1), ‖v.getD m 0‖) ∧
      ∀ b, dftAt b (2 * h + 1) v j = X + (sg b : ℂ) * Complex.I * Y := by
    intro j h1 h2
    obtain ⟨a, x, y, ha, nx, ny⟩ := gInnerR_spec A h j hp h1 h2 ccl wal v hc hwl hw hc0 hcl
    exact ⟨_, ha, _, _, nx, ny, fun b => dft_pair b h j v⟩
  rw [show (2 * h + 1 + 1) / 2 = h + 1 by omega]
  have := forN_inv (h + 1) (fun j0 (out : List ℂ) => do
      let r ← gInnerR f (2 * h + 1) (j0 + 1) ccl wal
      let abi := if back then r.2.2 else -r.2.2
      let abi := conjflip abi
      let out ← wr out ((j0 + 1 : ℕ) : ℤ) (f.add r.2.1 abi)
      wr out ((2 * h + 1 - (j0 + 1) : ℕ) : ℤ) (f.sub r.2.1 abi)) ((List.replicate (2 * h + 1) 0).set 0 s)
    (fun k out => out.length = 2 * h + 1 ∧
      Near (rho u κ ^ (h + 3)) (out.getD 0 0) (dftAt back (2 * h + 1) v 0) (2 * ∑ m ∈ range (2 * h + 1), ‖v.getD m 0‖) ∧
      ∀ j, 1 ≤ j → j ≤ k →
        Near (rho u κ ^ (h + 3)) (out.getD j 0) (dftAt back (2 * h + 1) v j) (2 * ∑ m ∈ range (2 * h + 1), ‖v.getD m 0‖) ∧
        Near (rho u κ ^ (h + 3)) (out.getD (2 * h + 1 - j) 0) (dftAt back (2 * h + 1) v (2 * h + 1 - j))
          (2 * ∑ m ∈ range (2 * h + 1), ‖v.getD m 0‖))
    ⟨by simp, by
      rw [getD_set_self _ (by simp)]
      have : dftAt back (2 * h + 1) v 0 = ∑ m ∈ range (2 * h + 1), v.getD m 0 := by unfold dftAt; simp
      rw [this]
      exact (nearP A (by omega) hs).mono le_rfl (by linarith), by omega⟩
    (by
      rintro k out hk ⟨h1, h2, h3⟩
      obtain ⟨r, hr, X, Y, nx, ny, hrs⟩ := hR (k + 1) (by omega) (by omega)
      rw [hr, ok_bind]
      dsimp only
      have nz : Near (rho u κ ^ (h + 2)) (conjflip (if back = true then r.2.2 else -r.2.2)) (conjflip (if back = true then Y else -Y))
          (∑ m ∈ range (2 * h + 1), ‖v.getD m 0‖) := by
        apply flip_step
        cases back
        · simpa using ny.neg
        · simpa using ny
      have e1 : Near (rho u κ ^ (h + 3)) (f.add r.2.1 (conjflip (if back = true then r.2.2 else -r.2.2))) (dftAt back (2 * h + 1) v (k + 1))
          (2 * ∑ m ∈ range (2 * h + 1), ‖v.getD m 0‖) := by
        have := add_step A (k := h + 2) (k' := h + 2) (m := h + 3) le_rfl le_rfl nx nz
        rw [two_mul (∑ m ∈ range (2 * h + 1), ‖v.getD m 0‖)]
        have e : dftAt back (2 * h + 1) v (k + 1) = X + conjflip (if back = true then Y else -Y) := by
          rw [hrs, conjflip_eq]; cases back <;> simp [sg]
        rw [e]; exact this
      have e2 : Near (rho u κ ^ (h + 3)) (f.sub r.2.1 (conjflip (if back = true then r.2.2 else -r.2.2))) (dftAt back (2 * h + 1) v (2 * h + 1 - (k + 1)))
          (2 * ∑ m ∈ range (2 * h + 1), ‖v.getD m 0‖) := by
        have := sub_step A (k := h + 2) (k' := h + 2) (m := h + 3) le_rfl le_rfl nx nz
        rw [two_mul (∑ m ∈ range (2 * h + 1), ‖v.getD m 0‖)]
        have e : dftAt back (2 * h + 1) v (2 * h + 1 - (k + 1)) = X - conjflip (if back = true then Y else -Y) := by
          rw [dft_flip _ _ _ (by omega), hrs, conjflip_eq]; cases back <;> simp [sg] <;> ring
        rw [e]; exact this
      generalize f.add r.2.1 (conjflip (if back = true then r.2.2 else -r.2.2)) = c1 at e1 ⊢
      generalize f.sub r.2.1 (conjflip (if back = true then r.2.2 else -r.2.2)) = c2 at e2 ⊢
      rw [wr_nat _ (by omega), ok_bind, wr_nat _ (by rw [List.length_set]; omega)]
      refine ⟨_, rfl, by simpa using h1, ?_, ?_⟩
      · rw [getD_set_ne _ (by omega), getD_set_ne _ (by omega)]; exact h2
      · intro j hj1 hj2
        constructor
        · by_cases d1 : 2 * h + 1 - (k + 1) = j
          · rw [d1] at e2
            rw [d1, getD_set_self _ (by rw [List.length_set]; omega)]; exact e2
          rw [getD_set_ne _ d1]
          by_cases d2 : k + 1 = j
          · rw [d2] at e1
            rw [d2, getD_set_self _ (by omega)]; exact e1
          rw [getD_set_ne _ d2]; exact (h3 j hj1 (by omega)).1
        · by_cases d1 : k + 1 = j
          · rw [d1] at e2
            rw [d1, getD_set_self _ (by rw [List.length_set]; omega)]; exact e2
          rw [getD_set_ne _ (by omega)]
          by_cases d2 : k + 1 = 2 * h + 1 - j
          · rw [d2] at e1
            rw [d2, getD_set_self _ (by omega)]; exact e1
          rw [getD_set_ne _ d2]; exact (h3 j hj1 (by omega)).2)
  obtain ⟨r, hu, h1, h2, h3⟩ := this
  refine ⟨r, hu, h1, fun j hj => ?_⟩
  rcases Nat.eq_zero_or_pos j with rfl | hpos
  · exact h2
  by_cases hle : j ≤ h + 1
  · exact (h3 j hpos hle).1
  · have := (h3 (2 * h + 1 - j) (by omega) (by omega)).2
    rwa [show 2 * h + 1 - (2 * h + 1 - j) = j by omega] at this

end
end Verif.Fft
