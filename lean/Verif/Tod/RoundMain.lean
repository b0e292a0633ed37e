import Verif.Tod.RoundGrid
import Mathlib.Algebra.BigOperators.Group.Finset.Basic
import Mathlib.Data.Nat.Choose.Sum

/-!
# C58: the error of the interpolated signal
-/

namespace Verif.Tod
open Verif Res Finset FP

variable {rnd : ℝ → ℝ} {u : ℝ} {N0 : ℕ}

/-! ## sensitivity of the weights -/

/-- Weights of node `m` if distances below one grid cell are counted as one cell. -/
noncomputable def wgtMax (N : ℕ) (x : ℝ) (m : ℕ) : ℝ := ∏ k ∈ (range N).erase m, (max |x - k| 1 / |(m : ℝ) - k|)

theorem prod_perturb (s : Finset ℕ) (a : ℕ → ℝ) (ha : ∀ k, 0 ≤ a k) {η : ℝ} (hη : 0 ≤ η) :
    ∏ k ∈ s, (a k + η) ≤ ∏ k ∈ s, a k + ((1 + η) ^ s.card - 1) * ∏ k ∈ s, max (a k) 1 := by
  induction s using Finset.induction_on with
  | empty => simp
  | insert k s hk ih =>
    rw [prod_insert hk, prod_insert hk, prod_insert hk, card_insert_of_notMem hk, pow_succ]
    set P := ∏ k ∈ s, a k
    set B := ∏ k ∈ s, max (a k) 1
    set q := (1 + η) ^ s.card
    have hq : 1 ≤ q := one_le_pow₀ (by linarith)
    have hPB : P ≤ B := prod_le_prod (fun k _ => ha k) (fun k _ => le_max_left _ _)
    have hB : 0 ≤ B := prod_nonneg (fun k _ => le_trans zero_le_one (le_max_right _ _))
    have hP : 0 ≤ P := prod_nonneg (fun k _ => ha k)
    set b := max (a k) 1
    have h1 : a k ≤ b := le_max_left _ _
    have h2 : 1 ≤ b := le_max_right _ _
    have h3 : (a k + η) * ∏ k ∈ s, (a k + η) ≤ (a k + η) * (P + (q - 1) * B) :=
      mul_le_mul_of_nonneg_left ih (add_nonneg (ha k) hη)
    have h4 : a k * ((q - 1) * B) ≤ b * ((q - 1) * B) := mul_le_mul_of_nonneg_right h1 (mul_nonneg (by linarith) hB)
    have h5 : η * (P + (q - 1) * B) ≤ η * (q * B) := mul_le_mul_of_nonneg_left (by linarith) hη
    have h6 : η * (q * B) * 1 ≤ η * (q * B) * b := mul_le_mul_of_nonneg_left h2 (by positivity)
    nlinarith

/-- Relative growth of the computed weights. -/
noncomputable def wgtGrow (N : ℕ) (u η : ℝ) : ℝ := (1 + u) ^ (2 * N + 1) * (1 + η) ^ (N - 1)

theorem wgtGrow_ge (N : ℕ) {η : ℝ} (h : 0 ≤ u) (hη : 0 ≤ η) : 1 ≤ wgtGrow N u η := by
  unfold wgtGrow
  have h1 : (1 : ℝ) ≤ (1 + u) ^ (2 * N + 1) := one_le_pow₀ (by linarith)
  have h2 : 1 ≤ (1 + η) ^ (N - 1) := one_le_pow₀ (by linarith)
  nlinarith

theorem wgtHat_le {N m : ℕ} (hm : m < N) {η x : ℝ} (h : 0 ≤ u) (hη : 0 ≤ η) :
    |wgt N x m| ≤ wgtMax N x m ∧ wgtHat N u η x m ≤ |wgt N x m| + (wgtGrow N u η - 1) * wgtMax N x m := by
  have hc : ((range N).erase m).card = N - 1 := by rw [card_erase_of_mem (by simpa using hm), card_range]
  have hD : 0 ≤ ∏ k ∈ (range N).erase m, |(m : ℝ) - k| := prod_nonneg (fun k _ => abs_nonneg _)
  rw [wgt_real N x m hm, abs_prod]
  unfold wgtHat wgtMax wgtGrow
  simp only [abs_div]
  rw [prod_div_distrib, prod_div_distrib, prod_div_distrib]
  have h1 := prod_perturb ((range N).erase m) (fun k => |x - (k : ℝ)|) (fun k => abs_nonneg _) hη
  rw [hc] at h1
  set D := ∏ k ∈ (range N).erase m, |(m : ℝ) - k|
  set A := ∏ k ∈ (range N).erase m, |x - (k : ℝ)|
  set B := ∏ k ∈ (range N).erase m, max |x - (k : ℝ)| 1
  have hAB : A ≤ B := prod_le_prod (fun k _ => abs_nonneg _) (fun k _ => le_max_left _ _)
  refine ⟨div_le_div_of_nonneg_right hAB hD, ?_⟩
  have hr : (1 : ℝ) ≤ (1 + u) ^ (2 * N + 1) := one_le_pow₀ (by linarith)
  rw [← mul_div_assoc, ← mul_div_assoc, ← add_div]
  refine div_le_div_of_nonneg_right ?_ hD
  have h2 := mul_le_mul_of_nonneg_left h1 (show (0 : ℝ) ≤ (1 + u) ^ (2 * N + 1) by linarith)
  have h3 : ((1 + u) ^ (2 * N + 1) - 1) * A ≤ ((1 + u) ^ (2 * N + 1) - 1) * B := mul_le_mul_of_nonneg_left hAB (by linarith)
  nlinarith

/-- `∏_{k≠m} |m-k| = m! (N-1-m)!` -/
theorem prod_dist {N m : ℕ} (hm : m < N) : ∏ k ∈ (range N).erase m, |(m : ℝ) - k| = m.factorial * (N - 1 - m).factorial := by
  have hsplit : (range N).erase m = range m ∪ Ico (m + 1) N := by
    ext k; simp only [mem_erase, mem_range, mem_union, mem_Ico]; omega
  have hdisj : Disjoint (range m) (Ico (m + 1) N) := by
    rw [Finset.disjoint_left]; intro k h1 h2; simp only [mem_range, mem_Ico] at h1 h2; omega
  rw [hsplit, prod_union hdisj]
  congr 1
  · rw [← prod_range_add_one_eq_factorial, ← prod_range_reflect]
    push_cast
    refine prod_congr rfl (fun k hk => ?_)
    rw [mem_range] at hk
    rw [Nat.cast_sub (by omega), Nat.cast_sub (by omega)]
    push_cast
    rw [show (m : ℝ) - (m - 1 - k) = k + 1 by ring, abs_of_nonneg (by positivity)]
  · rw [← prod_range_add_one_eq_factorial, prod_Ico_eq_prod_range, show N - (m + 1) = N - 1 - m by omega]
    push_cast
    refine prod_congr rfl (fun k _ => ?_)
    rw [show (m : ℝ) - (m + 1 + k) = -(k + 1) by ring, abs_neg, abs_of_nonneg (by positivity)]

theorem sum_inv_factorial (n : ℕ) :
    ∑ m ∈ range (n + 1), (1 : ℝ) / (m.factorial * (n - m).factorial) = 2 ^ n / n.factorial := by
  have h := Nat.sum_range_choose n
  have hn : (n.factorial : ℝ) ≠ 0 := by exact_mod_cast n.factorial_ne_zero
  rw [eq_div_iff hn, sum_mul]
  have : ((2 ^ n : ℕ) : ℝ) = 2 ^ n := by push_cast; ring
  rw [← this, ← h]
  push_cast
  refine sum_congr rfl (fun m hm => ?_)
  rw [mem_range] at hm
  rw [Nat.choose_eq_factorial_div_factorial (by omega), Nat.cast_div (Nat.factorial_mul_factorial_dvd_factorial (by omega))
    (by positivity)]
  push_cast
  ring

theorem prod_one_up (n : ℕ) : ∏ k ∈ range n, ((k : ℝ) + 1) = n.factorial := by
  rw [← prod_range_add_one_eq_factorial]; push_cast; rfl

/-- A bound on the sum of the magnitudes of the weights for positions in the central cell of the stencil (distances below one
cell counted as one cell). -/
noncomputable def lebesgue (c : Cfg) : ℝ :=
  2 ^ c.order * ((c.ioffset + 1).factorial * (c.order - c.ioffset).factorial) / c.order.factorial

theorem lebesgue_pos (c : Cfg) : 0 < lebesgue c := by
  unfold lebesgue; positivity

theorem sum_wgtMax (c : Cfg) {x δ : ℝ} (hδ : 0 ≤ δ) (h0 : (c.ioffset : ℝ) - δ ≤ x) (h1 : x ≤ c.ioffset + 1 + δ) :
    ∑ m ∈ range c.npoints, wgtMax c.npoints x m ≤ (1 + δ) ^ c.npoints * lebesgue c := by
  have hb : ∀ k ∈ range c.npoints, max |x - (k : ℝ)| 1 ≤
      (if k ≤ c.ioffset then ((c.ioffset + 1 - k : ℕ) : ℝ) else ((k - c.ioffset : ℕ) : ℝ)) * (1 + δ) := by
    intro k _
    split
    · rename_i hk
      have hk' : (k : ℝ) ≤ c.ioffset := by exact_mod_cast hk
      rw [Nat.cast_sub (by omega)]
      push_cast
      have : 0 ≤ (c.ioffset - k : ℝ) * δ := mul_nonneg (by linarith) hδ
      refine max_le (abs_le.mpr ⟨by nlinarith, by nlinarith⟩) (by nlinarith)
    · rename_i hk
      have hk' : (c.ioffset : ℝ) + 1 ≤ k := by exact_mod_cast not_le.mp hk
      rw [Nat.cast_sub (by omega)]
      have : 0 ≤ (k - (c.ioffset + 1) : ℝ) * δ := mul_nonneg (by linarith) hδ
      refine max_le (abs_le.mpr ⟨by nlinarith, by nlinarith⟩) (by nlinarith)
  have hio : c.ioffset + 1 ≤ c.npoints := by unfold Cfg.ioffset Cfg.npoints; omega
  have hQ : ∏ k ∈ range c.npoints, max |x - (k : ℝ)| 1 ≤
      (1 + δ) ^ c.npoints * ((c.ioffset + 1).factorial * (c.order - c.ioffset).factorial) := by
    refine (prod_le_prod (fun k _ => le_trans zero_le_one (le_max_right _ _)) hb).trans (le_of_eq ?_)
    rw [prod_mul_distrib, prod_const, card_range, mul_comm]
    congr 1
    rw [range_eq_Ico, ← prod_Ico_consecutive _ (Nat.zero_le (c.ioffset + 1)) hio]
    congr 1
    · rw [← range_eq_Ico, ← prod_one_up, ← prod_range_reflect]
      refine prod_congr rfl (fun k hk => ?_)
      rw [mem_range] at hk
      rw [if_pos (by omega), show c.ioffset + 1 - (c.ioffset + 1 - 1 - k) = k + 1 by omega]
      push_cast; ring
    · rw [prod_Ico_eq_prod_range, show c.npoints - (c.ioffset + 1) = c.order - c.ioffset by unfold Cfg.npoints; omega, ← prod_one_up]
      refine prod_congr rfl (fun k hk => ?_)
      rw [if_neg (by omega), show c.ioffset + 1 + k - c.ioffset = k + 1 by omega]
      push_cast; ring
  set Q : ℝ := (c.ioffset + 1).factorial * (c.order - c.ioffset).factorial with hQd
  have hm : ∀ m ∈ range c.npoints, wgtMax c.npoints x m ≤ (1 + δ) ^ c.npoints * Q * (1 / (m.factorial * (c.order - m).factorial)) := by
    intro m hm
    have hm' := mem_range.mp hm
    unfold wgtMax
    rw [prod_div_distrib, prod_dist hm', mul_one_div]
    have e : c.npoints - 1 - m = c.order - m := by unfold Cfg.npoints; omega
    rw [e]
    refine div_le_div_of_nonneg_right ?_ (by positivity)
    refine le_trans ?_ hQ
    rw [← mul_prod_erase _ _ hm]
    exact le_mul_of_one_le_left (prod_nonneg (fun k _ => le_trans zero_le_one (le_max_right _ _))) (le_max_right _ _)
  refine (sum_le_sum hm).trans (le_of_eq ?_)
  rw [← mul_sum]
  have := sum_inv_factorial c.order
  conv_lhs => rw [show range c.npoints = range (c.order + 1) from rfl, this]
  unfold lebesgue
  rw [← hQd]; ring

/-! ## one sample -/

/-- Sum of the magnitudes of the numbers of a ring at every longitude is at most `S`. -/
def RingBound (c : Cfg) (ring : List ℝ) (S : ℝ) : Prop := ∀ p < c.nphi, ringAbs c ring p ≤ S

/-- Growth factor of the roundings in one sample: `δt`, `δp` are the errors of the positions in the rings and in longitude. -/
noncomputable def sampleGrow (c : Cfg) (u psi δt δp : ℝ) : ℝ :=
  sumGrow c u psi * (wgtGrow c.npoints u (factorErr c.npoints u δt) * wgtGrow c.npoints u (factorErr c.npoints u δp))

/-- Size of the terms of the weighted sum. -/
noncomputable def sampleSize (c : Cfg) (S δt δp : ℝ) : ℝ :=
  2 * S * (((1 + δp) ^ c.npoints * lebesgue c) * ((1 + δt) ^ c.npoints * lebesgue c))

theorem near_total (c : Cfg) (hord : c.order ≤ c.nphi) {ring : ℤ → List ℝ} {S : ℝ} {it0 ip0 : ℤ} (h0 : 0 ≤ ip0) (h1 : ip0 < c.nphi)
    (hS : ∀ k < c.npoints, RingBound c (ring (it0 + k)) S) {a x psi xt xp δt δp : ℝ} (hu : 0 ≤ u) (ht : 0 ≤ δt) (hp : 0 ≤ δp)
    (ht0 : (c.ioffset : ℝ) - δt ≤ xt) (ht1 : xt ≤ c.ioffset + 1 + δt) (hp0 : (c.ioffset : ℝ) - δp ≤ xp) (hp1 : xp ≤ c.ioffset + 1 + δp)
    (h : Near a x (sumGrow c u psi * valHat c u (factorErr c.npoints u δt) (factorErr c.npoints u δp) ring xt xp it0 ip0)
      (valAbs c ring xt xp it0 ip0)) :
    Near a x (sampleSize c S δt δp * sampleGrow c u psi δt δp) (sampleSize c S δt δp) := by
  set ηt := factorErr c.npoints u δt with hηt
  set ηp := factorErr c.npoints u δp with hηp
  have t0 : 0 ≤ ηt := by rw [hηt]; unfold factorErr; positivity
  have p0 : 0 ≤ ηp := by rw [hηp]; unfold factorErr; positivity
  set G := sumGrow c u psi
  set ρt := wgtGrow c.npoints u ηt
  set ρp := wgtGrow c.npoints u ηp
  have hG : 1 ≤ G := sumGrow_ge c hu psi
  have rt : 1 ≤ ρt := wgtGrow_ge _ hu t0
  have rp : 1 ≤ ρp := wgtGrow_ge _ hu p0
  have hst : ∀ j < c.npoints, (stencil c ip0 j).toNat < c.nphi := by
    intro j hj
    obtain ⟨s0, s1, _⟩ := (C14_stencil c hord h0 h1).1 j (by unfold Cfg.npoints at hj; omega)
    omega
  have hN : 0 < c.npoints := by unfold Cfg.npoints; omega
  have hS0 : 0 ≤ S := (ringAbs_nonneg c _ _).trans (hS 0 hN _ (hst 0 hN))
  have hM : ∀ x m, 0 ≤ wgtMax c.npoints x m := fun x m => by
    unfold wgtMax
    exact prod_nonneg (fun k _ => div_nonneg (le_trans zero_le_one (le_max_right _ _)) (abs_nonneg _))
  have st := sum_wgtMax c ht ht0 ht1
  have sp := sum_wgtMax c hp hp0 hp1
  have st0 : 0 ≤ ∑ m ∈ range c.npoints, wgtMax c.npoints xt m := sum_nonneg (fun m _ => hM _ _)
  have sp0 : 0 ≤ ∑ m ∈ range c.npoints, wgtMax c.npoints xp m := sum_nonneg (fun m _ => hM _ _)
  have hgrow : 1 ≤ G * (ρt * ρp) := by
    have : 1 ≤ ρt * ρp := by nlinarith
    nlinarith
  have hdbl : ∑ k ∈ range c.npoints, ∑ j ∈ range c.npoints, 2 * S * (wgtMax c.npoints xp j * wgtMax c.npoints xt k) ≤
      sampleSize c S δt δp := by
    unfold sampleSize
    have e : ∑ k ∈ range c.npoints, ∑ j ∈ range c.npoints, 2 * S * (wgtMax c.npoints xp j * wgtMax c.npoints xt k) =
        2 * S * ((∑ j ∈ range c.npoints, wgtMax c.npoints xp j) * ∑ k ∈ range c.npoints, wgtMax c.npoints xt k) := by
      simp only [← mul_sum, ← sum_mul]
    rw [e]
    exact mul_le_mul_of_nonneg_left (mul_le_mul sp st st0 (sp0.trans sp)) (by linarith)
  -- termwise
  have term : ∀ k < c.npoints, ∀ j < c.npoints,
      2 * |wgt c.npoints xp j| * |wgt c.npoints xt k| * ringAbs c (ring (it0 + k)) (stencil c ip0 j).toNat ≤
        2 * S * (wgtMax c.npoints xp j * wgtMax c.npoints xt k) ∧
      G * (2 * wgtHat c.npoints u ηp xp j * wgtHat c.npoints u ηt xt k * ringAbs c (ring (it0 + k)) (stencil c ip0 j).toNat) -
        2 * |wgt c.npoints xp j| * |wgt c.npoints xt k| * ringAbs c (ring (it0 + k)) (stencil c ip0 j).toNat ≤
        (G * (ρt * ρp) - 1) * (2 * S * (wgtMax c.npoints xp j * wgtMax c.npoints xt k)) := by
    intro k hk j hj
    have hP := hS k hk _ (hst j hj)
    have hP0 := ringAbs_nonneg c (ring (it0 + k)) (stencil c ip0 j).toNat
    obtain ⟨a1, a2⟩ := wgtHat_le (x := xp) hj hu p0
    obtain ⟨b1, b2⟩ := wgtHat_le (x := xt) hk hu t0
    set P := ringAbs c (ring (it0 + k)) (stencil c ip0 j).toNat
    set wp := |wgt c.npoints xp j|
    set wt := |wgt c.npoints xt k|
    set Mp := wgtMax c.npoints xp j
    set Mt := wgtMax c.npoints xt k
    have hwp : 0 ≤ wp := abs_nonneg _
    have hwt : 0 ≤ wt := abs_nonneg _
    have hww : wp * wt ≤ Mp * Mt := mul_le_mul a1 b1 hwt (hwp.trans a1)
    have hMM : 0 ≤ Mp * Mt := mul_nonneg (hM _ _) (hM _ _)
    refine ⟨?_, ?_⟩
    · have := mul_le_mul hww hP hP0 hMM
      nlinarith
    · have hh : wgtHat c.npoints u ηp xp j * wgtHat c.npoints u ηt xt k ≤ (wp + (ρp - 1) * Mp) * (wt + (ρt - 1) * Mt) :=
        mul_le_mul a2 b2 (wgtHat_nonneg _ hu t0 _) (add_nonneg hwp (mul_nonneg (by linarith) (hM _ _)))
      have hh2 : G * (wgtHat c.npoints u ηp xp j * wgtHat c.npoints u ηt xt k) - wp * wt ≤ (G * (ρt * ρp) - 1) * (Mp * Mt) := by
        have g1 := mul_le_mul_of_nonneg_left hh (show 0 ≤ G by linarith)
        have g2 : (G - 1) * (wp * wt) ≤ (G - 1) * (Mp * Mt) := mul_le_mul_of_nonneg_left hww (by linarith)
        have hMp := hM xp j
        have hMt := hM xt k
        have g3 : G * ((ρt - 1) * (wp * Mt)) ≤ G * ((ρt - 1) * (Mp * Mt)) :=
          mul_le_mul_of_nonneg_left (mul_le_mul_of_nonneg_left (mul_le_mul_of_nonneg_right a1 hMt) (by linarith)) (by linarith)
        have g4 : G * ((ρp - 1) * (Mp * wt)) ≤ G * ((ρp - 1) * (Mp * Mt)) :=
          mul_le_mul_of_nonneg_left (mul_le_mul_of_nonneg_left (mul_le_mul_of_nonneg_left b1 hMp) (by linarith)) (by linarith)
        nlinarith
      have h0' : 0 ≤ (G * (ρt * ρp) - 1) * (Mp * Mt) := mul_nonneg (by linarith) hMM
      have k1 := mul_le_mul_of_nonneg_right hh2 hP0
      have k2 := mul_le_mul_of_nonneg_left hP h0'
      nlinarith
  refine h.mono2 ?_ ?_
  · refine le_trans ?_ hdbl
    unfold valAbs
    exact sum_le_sum (fun k hk => sum_le_sum (fun j hj => (term k (mem_range.mp hk) j (mem_range.mp hj)).1))
  · have h2 : G * valHat c u ηt ηp ring xt xp it0 ip0 - valAbs c ring xt xp it0 ip0 ≤
        (G * (ρt * ρp) - 1) * ∑ k ∈ range c.npoints, ∑ j ∈ range c.npoints, 2 * S * (wgtMax c.npoints xp j * wgtMax c.npoints xt k) := by
      unfold valHat valAbs
      rw [mul_sum, ← sum_sub_distrib, mul_sum]
      refine sum_le_sum (fun k hk => ?_)
      rw [mul_sum, ← sum_sub_distrib, mul_sum]
      exact sum_le_sum (fun j hj => (term k (mem_range.mp hk) j (mem_range.mp hj)).2)
    have h3 := mul_le_mul_of_nonneg_left hdbl (show 0 ≤ G * (ρt * ρp) - 1 by linarith)
    refine h2.trans (h3.trans (le_of_eq ?_))
    unfold sampleGrow
    ring

/-- Grid sizes for which all integers of the algorithm are exact. -/
structure SmallGrid (c : Cfg) (N0 : ℕ) : Prop where
  ntheta : c.ntheta ≤ N0
  nphi : c.nphi ≤ N0
  fact : c.order.factorial ≤ N0
  ord : c.order ≤ c.nphi

/-- Error of the position used for colatitudes. -/
noncomputable def posErrT (c : Cfg) (u : ℝ) : ℝ := thetaErr c u + u * (c.ioffset + 1)
/-- Error of the position used for longitudes. -/
noncomputable def posErrP (c : Cfg) (u phi : ℝ) : ℝ := phiErr c u phi + u * (c.ioffset + 1)

theorem near_sampleSpec (hr : Rounding rnd N0) (he : RelErr rnd u) (hu : u ≤ 1 / 10) {e : Env (FP rnd)} (hg : SmallGrid e.cfg N0)
    (hlen : ∀ h i, (e.ring h i).length = e.cfg.bufsize) {S : ℝ} (hS : ∀ h i, RingBound e.cfg ((e.ring h i).map FP.val) S)
    (phi theta psi : FP rnd) (h0 : 0 ≤ theta.val) (h1 : theta.val ≤ rnd Real.pi)
    (hT : thetaErr e.cfg u ≤ 1 / 2) :
    ∃ (v : FP rnd) (it0 ip0 k : ℤ) (xp : ℝ), sampleSpec e phi theta psi = ok v ∧
      betaToItheta e.cfg (foldGt theta) = ok it0 ∧ 0 ≤ it0 ∧ it0 + e.cfg.npoints ≤ e.cfg.ntheta ∧
      (e.cfg.ioffset : ℝ) - posErrT e.cfg u ≤ (foldExact rnd theta.val - e.cfg.theta0) * e.cfg.invDtheta - it0 ∧
      (foldExact rnd theta.val - e.cfg.theta0) * e.cfg.invDtheta - it0 ≤ e.cfg.ioffset + 1 + posErrT e.cfg u ∧
      0 ≤ ip0 ∧ ip0 < e.cfg.nphi ∧ phi.val = Real.pi / 2 + (ip0 + xp) * e.cfg.dphi + 2 * Real.pi * k ∧
      (e.cfg.ioffset : ℝ) - posErrP e.cfg u phi.val ≤ xp ∧ xp ≤ e.cfg.ioffset + 1 + posErrP e.cfg u phi.val ∧
      Near v.val (interpValue e.cfg (fun i => (e.ring (!(Arith.lt theta Arith.halfpi)) i.toNat).map FP.val)
          (foldExact rnd theta.val) psi.val it0 ip0 xp)
        (sampleSize e.cfg S (posErrT e.cfg u) (posErrP e.cfg u phi.val) * sampleGrow e.cfg u psi.val (posErrT e.cfg u) (posErrP e.cfg u phi.val))
        (sampleSize e.cfg S (posErrT e.cfg u) (posErrP e.cfg u phi.val)) := by
  have hu0 := he.nonneg
  set c := e.cfg with hc
  have hnt : 3 ≤ c.ntheta := by unfold Cfg.ntheta Cfg.margin Cfg.halfmargin; omega
  have h2 : 2 ≤ N0 := by have := hg.ntheta; omega
  have hio : c.ioffset + 1 ≤ N0 := by
    have := hg.ntheta
    have : c.ioffset + 1 ≤ c.ntheta := by unfold Cfg.ioffset Cfg.ntheta Cfg.margin Cfg.halfmargin Cfg.npoints; omega
    omega
  have hsmall : c.npoints ≤ N0 := by have := hg.ntheta; have := ntheta_ge c; omega
  obtain ⟨it0, hit, r0, r1, et, lt0, lt1⟩ := thetaFrac hr he hu c hg.ntheta h0 h1 hT
  obtain ⟨ip0, fp, xp, k, hcell, p0, p1, hphi, ep, lp0, lp1⟩ := phiFrac hr he hu c hg.nphi h2 hio (by have := hg.ord; omega) phi
  have hion : (c.ioffset : ℝ) + 1 ≤ c.npoints := by
    have : c.ioffset + 1 ≤ c.npoints := by unfold Cfg.ioffset Cfg.npoints; omega
    exact_mod_cast this
  have hio0 : (0 : ℝ) ≤ c.ioffset := Nat.cast_nonneg _
  have hfact : (c.npoints - 1).factorial ≤ N0 := by unfold Cfg.npoints; simpa using hg.fact
  set xt := (foldExact rnd theta.val - c.theta0) * c.invDtheta - it0 with hxt
  have wt : WSet rnd u N0 c.npoints
      (Arith.sub (Arith.mul (Arith.sub (foldGt theta) c.theta0) (c.invDtheta : FP rnd)) (Arith.ofInt it0) : FP rnd).val xt (posErrT c u) :=
    ⟨hr, he, et, by linarith, by linarith, hfact, hsmall⟩
  have wp : WSet rnd u N0 c.npoints fp.val xp (posErrP c u phi.val) :=
    ⟨hr, he, ep, by linarith, by linarith, hfact, hsmall⟩
  obtain ⟨v, hv, hn⟩ := near_sampleValue hr he (by linarith) c hg.ord
    (ring := fun i => e.ring (!(Arith.lt theta Arith.halfpi)) i.toNat) (fun i => hlen _ _)
    ⟨phi, foldGt theta, psi, Arith.ofInt 0, Arith.ofInt 0⟩ it0 hcell p0 p1 h2 wt wp
  have b1 := abs_le.mp wt.near
  have b2 := abs_le.mp wp.near
  have t0 : (c.ioffset : ℝ) - posErrT c u ≤ xt := by linarith
  have t1 : xt ≤ c.ioffset + 1 + posErrT c u := by linarith
  have q0 : (c.ioffset : ℝ) - posErrP c u phi.val ≤ xp := by linarith
  have q1 : xp ≤ c.ioffset + 1 + posErrP c u phi.val := by linarith
  refine ⟨v, it0, ip0, k, xp, ?_, hit, r0, r1, t0, t1, p0, p1, hphi, q0, q1, ?_⟩
  · unfold sampleSpec
    rw [← hc]
    simp only [hit, ok_bind]
    exact hv
  · exact near_total c hg.ord p0 p1 (ring := fun i => (e.ring (!(Arith.lt theta Arith.halfpi)) i.toNat).map FP.val)
      (fun k _ => hS _ _) hu0 wt.delta wp.delta t0 t1 q0 q1 hn

end Verif.Tod
