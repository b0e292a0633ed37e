import Verif.Fft.GoodSize
import Verif.Fft.Factor

/-! # Bluestein's algorithm computes the transform -/

namespace Verif.Fft
open Verif Res Finset

/-! ## orthogonality and cyclic convolution -/

theorem zeta_one_iff {n : ℕ} (hn : n ≠ 0) (t : ℤ) : zeta n t = 1 ↔ (n : ℤ) ∣ t := by
  constructor
  · intro h
    unfold zeta at h
    rw [Complex.exp_eq_one_iff] at h
    obtain ⟨q, hq⟩ := h
    refine ⟨q, ?_⟩
    have hn' : (n : ℂ) ≠ 0 := by exact_mod_cast hn
    have hpi : (2 * Real.pi * Complex.I : ℂ) ≠ 0 := by simp [Real.pi_ne_zero, Complex.I_ne_zero]
    have : (2 * Real.pi * Complex.I : ℂ) * (t / n) = 2 * Real.pi * Complex.I * q := by rw [← mul_div_assoc, hq]; ring
    have h2 := mul_left_cancel₀ hpi this
    rw [div_eq_iff hn'] at h2
    have h3 : (t : ℂ) = ((n * q : ℤ) : ℂ) := by rw [h2]; push_cast; ring
    exact_mod_cast h3
  · rintro ⟨q, rfl⟩
    exact zeta_self hn q

theorem zeta_orth {n : ℕ} (hn : n ≠ 0) (t : ℤ) : ∑ j ∈ range n, zeta n (t * j) = if (n : ℤ) ∣ t then (n : ℂ) else 0 := by
  have e : ∀ j ∈ range n, zeta n (t * j) = zeta n t ^ j := fun j _ => zeta_pow n t j
  rw [sum_congr rfl e]
  by_cases h : (n : ℤ) ∣ t
  · rw [if_pos h, (zeta_one_iff hn t).mpr h]; simp
  · rw [if_neg h]
    have h1 : zeta n t ≠ 1 := fun h' => h ((zeta_one_iff hn t).mp h')
    have := mul_geom_sum (zeta n t) n
    rw [zeta_pow_self hn, sub_self] at this
    rcases mul_eq_zero.mp this with c | c
    · exact absurd (sub_eq_zero.mp c) h1
    · exact c

/-- Cyclic convolution by transforms; `ε = ±1` chooses between `B` and its reflection. -/
theorem conv_thm {N : ℕ} (hN : N ≠ 0) (a B : ℕ → ℂ) (ε : ℤ) (hε : ε = 1 ∨ ε = -1) (k : ℕ) :
    ∑ j ∈ range N, ((∑ p ∈ range N, a p * zeta N (-(j * p))) * (∑ r ∈ range N, B r * zeta N (-(ε * (j * r))))) * zeta N (k * j) =
      N * ∑ p ∈ range N, a p * B ((ε * ((k : ℤ) - p)) % N).toNat := by
  have hNz : (N : ℤ) ≠ 0 := by exact_mod_cast hN
  have step : ∀ j ∈ range N, ((∑ p ∈ range N, a p * zeta N (-(j * p))) * (∑ r ∈ range N, B r * zeta N (-(ε * (j * r))))) * zeta N (k * j) =
      ∑ p ∈ range N, ∑ r ∈ range N, a p * B r * zeta N (((k : ℤ) - p - ε * r) * j) := by
    intro j _
    rw [sum_mul_sum, sum_mul]
    apply sum_congr rfl; intro p _
    rw [sum_mul]
    apply sum_congr rfl; intro r _
    have : zeta N (((k : ℤ) - p - ε * r) * j) = zeta N (-(j * p)) * zeta N (-(ε * (j * r))) * zeta N (k * j) := by
      rw [← zeta_add, ← zeta_add]; congr 1; ring
    rw [this]; ring
  rw [sum_congr rfl step, sum_comm, mul_sum]
  apply sum_congr rfl; intro p _
  rw [sum_comm]
  have inner : ∀ r ∈ range N, ∑ j ∈ range N, a p * B r * zeta N (((k : ℤ) - p - ε * r) * j) =
      if r = ((ε * ((k : ℤ) - p)) % N).toNat then a p * B r * N else 0 := by
    intro r hr
    rw [mem_range] at hr
    rw [← mul_sum, zeta_orth hN]
    have hm0 := Int.emod_nonneg (ε * ((k : ℤ) - p)) hNz
    have hm1 := Int.emod_lt_of_pos (ε * ((k : ℤ) - p)) (show (0 : ℤ) < N by omega)
    have hiff : (N : ℤ) ∣ ((k : ℤ) - p - ε * r) ↔ r = ((ε * ((k : ℤ) - p)) % N).toNat := by
      have h1 : (N : ℤ) ∣ ((k : ℤ) - p - ε * r) ↔ (N : ℤ) ∣ (ε * ((k : ℤ) - p) - r) := by
        rcases hε with rfl | rfl
        · rw [one_mul, one_mul]
        · rw [← dvd_neg]; ring_nf
      rw [h1]
      constructor
      · intro hd
        have h2 : (r : ℤ) % N = (ε * ((k : ℤ) - p)) % N := Int.modEq_iff_dvd.mpr hd
        rw [Int.emod_eq_of_lt (by omega) (by omega)] at h2
        omega
      · intro he
        have : (r : ℤ) = (ε * ((k : ℤ) - p)) % N := by omega
        rw [this]
        exact Int.dvd_self_sub_emod
    by_cases hd : (N : ℤ) ∣ ((k : ℤ) - p - ε * r)
    · rw [if_pos hd, if_pos (hiff.mp hd)]
    · rw [if_neg hd, if_neg (fun h => hd (hiff.mpr h)), mul_zero]
  rw [sum_congr rfl inner, sum_ite_eq' (range N)]
  have hmem : ((ε * ((k : ℤ) - p)) % N).toNat ∈ range N := by
    rw [mem_range]
    have hm0 := Int.emod_nonneg (ε * ((k : ℤ) - p)) hNz
    have hm1 := Int.emod_lt_of_pos (ε * ((k : ℤ) - p)) (show (0 : ℤ) < N by omega)
    omega
  rw [if_pos hmem]; ring

/-! ## initialisation -/

/-- A loop that fills positions `off … off+n-1`. -/
theorem fill_spec (n off : ℕ) (l : List ℂ) (body : ℕ → List ℂ → Res (List ℂ)) (f : ℕ → ℂ) (L : ℕ) (hL : off + n ≤ L) (hl : l.length = L)
    (hb : ∀ m < n, ∀ c : List ℂ, c.length = L → (∀ x, off + m ≤ x → c.getD x 0 = l.getD x 0) → body m c = wr c ((off + m : ℕ) : ℤ) (f m)) :
    ∃ r, forN n body l = ok r ∧ r.length = L ∧ (∀ m < n, r.getD (off + m) 0 = f m) ∧
      (∀ x, x < off ∨ off + n ≤ x → r.getD x 0 = l.getD x 0) := by
  obtain ⟨r, hr, h1, h2, h3⟩ := forN_inv n body l
    (fun m c => c.length = L ∧ (∀ i < m, c.getD (off + i) 0 = f i) ∧ (∀ x, x < off ∨ off + m ≤ x → c.getD x 0 = l.getD x 0))
    ⟨hl, by omega, fun _ _ => rfl⟩
    (by
      rintro m c hm ⟨h1, h2, h3⟩
      rw [hb m hm c h1 (fun x hx => h3 x (Or.inr hx)), wr_nat _ (by omega)]
      refine ⟨_, rfl, by simpa using h1, fun i hi => ?_, fun x hx => ?_⟩
      · by_cases e : i = m
        · subst e; rw [getD_set_self _ (by omega)]
        · rw [getD_set_ne _ (by omega)]; exact h2 i (by omega)
      · rw [getD_set_ne _ (by omega)]; exact h3 x (by omega))
  exact ⟨r, hr, h1, h2, h3⟩

theorem initBk_spec (n : ℕ) (h1 : 1 ≤ n) (bk : List ℂ) (hl : bk.length = n) :
    ∃ r, initBk n bk = ok r ∧ r.length = n ∧ ∀ m < n, r.getD m 0 = zeta (2 * n) ((m : ℤ) ^ 2) := by
  unfold initBk
  rw [show (0 : ℤ) = ((0 : ℕ) : ℤ) by rfl, wr_nat _ (by omega), ok_bind]
  obtain ⟨⟨cf, r⟩, hr, a1, a2, a3⟩ := forN_inv (n - 1) (fun m0 (st : ℕ × List ℂ) => do
    let m := m0 + 1
    let coeff := st.1 + (2 * m - 1)
    let coeff := if coeff ≥ 2 * n then coeff - 2 * n else coeff
    let bk ← wr st.2 (m : ℤ) (cis (Real.pi / n * coeff))
    ok (coeff, bk)) (0, bk.set 0 1)
    (fun k st => st.2.length = n ∧ (∃ q : ℤ, (st.1 : ℤ) = (k : ℤ) ^ 2 + ((2 * n : ℕ) : ℤ) * q) ∧
      ∀ m ≤ k, st.2.getD m 0 = zeta (2 * n) ((m : ℤ) ^ 2))
    ⟨by simpa using hl, ⟨0, by simp⟩, fun m hm => by
      obtain rfl : m = 0 := by omega
      rw [getD_set_self _ (by omega)]; simp⟩
    (by
      rintro k ⟨cf, c⟩ hk ⟨b1, ⟨q, b2⟩, b3⟩
      dsimp only at b1 b2 b3 ⊢
      obtain ⟨cf', hcf⟩ : ∃ x, x = (if cf + (2 * (k + 1) - 1) ≥ 2 * n then cf + (2 * (k + 1) - 1) - 2 * n else cf + (2 * (k + 1) - 1)) := ⟨_, rfl⟩
      rw [← hcf]
      obtain ⟨q', hq'⟩ : ∃ q' : ℤ, (cf' : ℤ) = ((k + 1 : ℕ) : ℤ) ^ 2 + ((2 * n : ℕ) : ℤ) * q' := by
        by_cases hc : cf + (2 * (k + 1) - 1) ≥ 2 * n
        · rw [if_pos hc] at hcf
          refine ⟨q - 1, ?_⟩
          have : (cf' : ℤ) = cf + (2 * (k + 1) - 1) - 2 * n := by omega
          rw [this, b2]; push_cast; ring
        · rw [if_neg hc] at hcf
          refine ⟨q, ?_⟩
          have : (cf' : ℤ) = cf + (2 * (k + 1) - 1) := by omega
          rw [this, b2]; push_cast; ring
      rw [wr_nat _ (by omega), ok_bind]
      refine ⟨_, rfl, by simpa using b1, ⟨q', hq'⟩, fun m hm => ?_⟩
      dsimp only
      by_cases e : m = k + 1
      · subst e
        rw [getD_set_self _ (by omega), ← zeta_mod (n := 2 * n) (by omega) (cf' : ℤ) _ q' hq', zeta_eq]
        congr 1
        push_cast
        have : (n : ℝ) ≠ 0 := by positivity
        field_simp
      · rw [getD_set_ne _ (by omega)]; exact b3 m (by omega))
  rw [hr, ok_bind]
  exact ⟨r, rfl, a1, fun m hm => a3 m (by omega)⟩

/-- The padded sequence: at the residue of `t`, `|t| < n`, it holds `exp(iπt²/n)/n2`. -/
theorem initBkf_spec (n n2 : ℕ) (h1 : 1 ≤ n) (h2 : 2 * n - 1 ≤ n2) (bk bkf : List ℂ) (hbk : bk.length = n)
    (hb : ∀ m < n, bk.getD m 0 = zeta (2 * n) ((m : ℤ) ^ 2)) (hl : bkf.length = n2) :
    ∃ r, initBkf n n2 bk bkf = ok r ∧ r.length = n2 ∧
      ∀ t : ℤ, -(n : ℤ) < t → t < n → r.getD (t % n2).toNat 0 = zeta (2 * n) (t ^ 2) * (1 / n2) := by
  unfold initBkf
  dsimp only
  rw [show (0 : ℤ) = ((0 : ℕ) : ℤ) by rfl, rdD (by omega), ok_bind, wr_nat _ (by omega), ok_bind]
  obtain ⟨c, hc, c1, c2, c3⟩ := forN_inv (n - 1) (fun m0 bkf => do
    let b ← rd bk ((m0 + 1 : ℕ) : ℤ)
    let bkf ← wr bkf ((n2 : ℤ) - ((m0 + 1 : ℕ) : ℤ)) (b * (1 / (n2 : ℂ)))
    wr bkf ((m0 + 1 : ℕ) : ℤ) (b * (1 / (n2 : ℂ)))) (bkf.set 0 (bk.getD 0 0 * (1 / (n2 : ℂ))))
    (fun k c => c.length = n2 ∧ (∀ m ≤ k, c.getD m 0 = zeta (2 * n) ((m : ℤ) ^ 2) * (1 / n2)) ∧
      (∀ m, 1 ≤ m → m ≤ k → c.getD (n2 - m) 0 = zeta (2 * n) ((m : ℤ) ^ 2) * (1 / n2)))
    ⟨by simpa using hl, fun m hm => by
      obtain rfl : m = 0 := by omega
      rw [getD_set_self _ (by omega), hb 0 (by omega)], by omega⟩
    (by
      rintro k c hk ⟨b1, b2, b3⟩
      rw [rdD (by omega), ok_bind, show ((n2 : ℤ) - ((k + 1 : ℕ) : ℤ)) = ((n2 - (k + 1) : ℕ) : ℤ) by omega, wr_nat _ (by omega), ok_bind,
        wr_nat _ (by rw [List.length_set]; omega), hb (k + 1) (by omega)]
      refine ⟨_, rfl, by simpa using b1, fun m hm => ?_, fun m hm1 hm2 => ?_⟩
      · by_cases e : m = k + 1
        · subst e; rw [getD_set_self _ (by rw [List.length_set]; omega)]
        · rw [getD_set_ne _ (by omega), getD_set_ne _ (by omega)]; exact b2 m (by omega)
      · by_cases e : m = k + 1
        · subst e
          by_cases e2 : k + 1 = n2 - (k + 1)
          · rw [← e2, getD_set_self _ (by rw [List.length_set]; omega)]
          · rw [getD_set_ne _ e2, getD_set_self _ (by omega)]
        · rw [getD_set_ne _ (by omega), getD_set_ne _ (by omega)]; exact b3 m hm1 (by omega))
  rw [hc, ok_bind]
  obtain ⟨r, hr, r1, r2, r3⟩ := fill_spec (n2 + 1 - 2 * n) n c (fun m0 bkf => wr bkf ((n + m0 : ℕ) : ℤ) 0) (fun _ => 0) n2 (by omega) c1
    (fun m hm c _ _ => rfl)
  refine ⟨r, hr, r1, fun t ht1 ht2 => ?_⟩
  by_cases hpos : 0 ≤ t
  · obtain ⟨m, rfl⟩ := Int.eq_ofNat_of_zero_le hpos
    rw [Int.emod_eq_of_lt hpos (by omega), Int.toNat_natCast, r3 m (Or.inl (by omega)), c2 m (by omega)]
  · obtain ⟨m, hm⟩ := Int.eq_ofNat_of_zero_le (show 0 ≤ -t by omega)
    obtain rfl : t = -(m : ℤ) := by omega
    have : (-(m : ℤ)) % n2 = ((n2 - m : ℕ) : ℤ) := by
      rw [← Int.add_emod_right, Int.emod_eq_of_lt (by omega) (by omega)]
      omega
    rw [this, Int.toNat_natCast, r3 (n2 - m) (Or.inr (by omega)), c3 m (by omega) (by omega)]
    ring_nf

/-- Valid storage for length `n`. -/
structure BPlanOk (n : ℕ) (p : BPlan) : Prop where
  n2 : 2 * n - 1 ≤ p.n2
  n2pos : 1 ≤ p.n2
  bkl : p.bk.length = n
  bk : ∀ m < n, p.bk.getD m 0 = zeta (2 * n) ((m : ℤ) ^ 2)
  bkf : ∃ B : List ℂ, B.length = p.n2 ∧
    (∀ t : ℤ, -(n : ℤ) < t → t < n → B.getD (t % p.n2).toNat 0 = zeta (2 * n) (t ^ 2) * (1 / p.n2)) ∧
    p.bkf.length = p.n2 ∧ ∀ k < p.n2, p.bkf.getD k 0 = ∑ q ∈ range p.n2, B.getD q 0 * zeta p.n2 (sg false * (k * q))
  work : WorkOk p.n2 p.work
  akf : p.akf.length = p.n2

theorem bluesteinI_spec (n : ℕ) (h1 : 1 ≤ n) (hn : 4 * n ≤ 3 ^ 14) (g : ℂ) : ∃ p, bluesteinI n g = ok p ∧ BPlanOk n p := by
  obtain ⟨n2, hg, g1, g2, _⟩ := goodSize_spec (n * 2 - 1) (by omega)
  obtain ⟨bk, hbk, b1, b2⟩ := initBk_spec n h1 (List.replicate n g) (by simp)
  obtain ⟨B, hB, B1, B2⟩ := initBkf_spec n n2 h1 (by omega) bk (List.replicate n2 g) b1 b2 (by simp)
  obtain ⟨w, hw, w1⟩ := cffti_spec n2 (by omega) (by omega) g
  obtain ⟨r, w', hr, r1, r2, r3⟩ := cfft_spec false (by omega) B B1 w w1
  refine ⟨⟨n2, bk, r, w', List.replicate n2 g⟩, ?_, ⟨by dsimp only; omega, by dsimp only; omega, b1, b2, ⟨B, B1, B2, r1, r3⟩, r2, by simp⟩⟩
  unfold bluesteinI
  rw [hg, ok_bind, hbk, ok_bind, hB, ok_bind, hw, ok_bind, hr, ok_bind]

/-! ## the transform -/

theorem mulpm_conj (b x : ℂ) : mulpm false b x = (starRingEnd ℂ) b * x := by
  unfold mulpm
  rw [if_neg (by simp)]
  apply Complex.ext <;> simp <;> ring

theorem mulpm_true (b x : ℂ) : mulpm true b x = b * x := by
  unfold mulpm
  rw [if_pos rfl]
  apply Complex.ext <;> simp

/-- Bluestein's identity: chirp, cyclic convolution with the padded sequence `B`, chirp. -/
theorem bluestein_alg (back : Bool) {n N : ℕ} (h1 : 1 ≤ n) (hNn : 2 * n - 1 ≤ N) (B data : List ℂ)
    (B2 : ∀ t : ℤ, -(n : ℤ) < t → t < n → B.getD (t % N).toNat 0 = zeta (2 * n) (t ^ 2) * (1 / N)) (a : ℕ → ℂ)
    (ha : ∀ q, a q = if q < n then zeta (2 * n) (sg back * (q : ℤ) ^ 2) * data.getD q 0 else 0) (k : ℕ) (hk : k < n) :
    zeta (2 * n) (sg back * (k : ℤ) ^ 2) * ∑ j ∈ range N, mulpm (!back) (∑ q ∈ range N, B.getD q 0 * zeta N (sg false * (j * q)))
        (∑ q ∈ range N, a q * zeta N (sg false * (j * q))) * zeta N (sg true * (k * j)) =
      ∑ q ∈ range n, data.getD q 0 * zeta n (sg back * (k * q)) := by
  let C : ℕ → ℂ := fun q => if back then (starRingEnd ℂ) (B.getD q 0) else B.getD q 0
  have hconv : ∀ j ∈ range N, mulpm (!back) (∑ q ∈ range N, B.getD q 0 * zeta N (sg false * (j * q)))
        (∑ q ∈ range N, a q * zeta N (sg false * (j * q))) * zeta N (sg true * (k * j)) =
      ((∑ q ∈ range N, a q * zeta N (-(j * q))) * (∑ r ∈ range N, C r * zeta N (-((-sg back) * (j * r))))) * zeta N (k * j) := by
    intro j hj
    rw [mem_range] at hj
    rw [show sg true * ((k : ℤ) * j) = k * j by simp [sg]]
    congr 1
    have hA : ∑ q ∈ range N, a q * zeta N (sg false * (j * q)) = ∑ q ∈ range N, a q * zeta N (-(j * q)) := by
      apply sum_congr rfl
      intro q hq
      rw [show sg false * ((j : ℤ) * q) = -(j * q) by simp [sg]]
    rw [← hA]
    cases back
    · rw [show (!false) = true by rfl, mulpm_true, mul_comm]
      congr 1
    · rw [show (!true) = false by rfl, mulpm_conj, mul_comm, map_sum]
      congr 1
      apply sum_congr rfl
      intro q _
      simp only [C, if_true, map_mul, zeta_conj]
      congr 2
  rw [sum_congr rfl hconv, conv_thm (by omega) a C (-sg back) (by cases back <;> simp [sg]) k]
  have hsum : ∑ q ∈ range N, a q * C ((-sg back * ((k : ℤ) - q)) % N).toNat =
      ∑ q ∈ range n, a q * C ((-sg back * ((k : ℤ) - q)) % N).toNat := by
    symm
    apply sum_subset
    · intro x hx; rw [mem_range] at *; omega
    · intro x _ hx
      rw [mem_range] at hx
      rw [ha, if_neg hx, zero_mul]
  rw [hsum, mul_sum, mul_sum]
  apply sum_congr rfl
  intro q hq
  rw [mem_range] at hq
  rw [ha, if_pos hq]
  have hC : C ((-sg back * ((k : ℤ) - q)) % N).toNat = zeta (2 * n) (-sg back * ((k : ℤ) - q) ^ 2) * (1 / N) := by
    simp only [C]
    cases back
    · rw [if_neg (by simp), show -sg false * ((k : ℤ) - q) = k - q by simp [sg], B2 _ (by omega) (by omega)]
      simp [sg]
    · rw [if_pos rfl, show -sg true * ((k : ℤ) - q) = q - k by simp [sg], B2 _ (by omega) (by omega), map_mul, zeta_conj]
      congr 1
      · congr 1; simp [sg]; ring
      · simp
  rw [hC]
  have hz : zeta n (sg back * (k * q)) = zeta (2 * n) (sg back * (k : ℤ) ^ 2) * (zeta (2 * n) (sg back * (q : ℤ) ^ 2) *
      zeta (2 * n) (-sg back * ((k : ℤ) - q) ^ 2)) := by
    rw [← zeta_add, ← zeta_add, ← zeta_scale (n := 2 * n) (m := 2) (k := n) rfl (by norm_num)]
    congr 1; push_cast; ring
  rw [hz]
  have hNc : (N : ℂ) ≠ 0 := by exact_mod_cast (show N ≠ 0 by omega)
  field_simp

theorem bluestein_spec (back : Bool) {n : ℕ} (h1 : 1 ≤ n) (p : BPlan) (hp : BPlanOk n p) (data : List ℂ) (hd : data.length = n) :
    ∃ r p', bluestein back n data p = ok (r, p') ∧ r.length = n ∧ BPlanOk n p' ∧
      ∀ k < n, r.getD k 0 = ∑ q ∈ range n, data.getD q 0 * zeta n (sg back * (k * q)) := by
  obtain ⟨N, hN⟩ : ∃ N, N = p.n2 := ⟨_, rfl⟩
  have hN0 : 1 ≤ N := hN ▸ hp.n2pos
  have hNn : 2 * n - 1 ≤ N := hN ▸ hp.n2
  obtain ⟨B, B1, B2, B3, B4⟩ := hp.bkf
  rw [← hN] at B1 B2 B3 B4
  have hbkl := hp.bkl
  -- a_k
  obtain ⟨u, hu, u1, u2, u3⟩ := fill_spec n 0 p.akf (fun m akf => do
    let d ← rd data (m : ℤ)
    let b ← rd p.bk (m : ℤ)
    wr akf (m : ℤ) (mulpm back b d)) (fun m => zeta (2 * n) (sg back * (m : ℤ) ^ 2) * data.getD m 0) N (by omega) (by rw [hp.akf, hN])
    (by
      intro m hm c _ _
      rw [rdD (by omega), ok_bind, rdD (by omega), ok_bind, hp.bk m hm, mulpm_zeta, zero_add])
  obtain ⟨a1, ha, a1l, a12, a13⟩ := fill_spec (N - n) n u (fun m0 akf => wr akf ((n + m0 : ℕ) : ℤ) 0) (fun _ => 0) N (by omega) u1
    (fun m hm c _ _ => rfl)
  have ha1 : initAk back n p.n2 data p.bk p.akf = ok a1 := by
    unfold initAk; rw [← hN, hu, ok_bind]; exact ha
  let a : ℕ → ℂ := fun q => if q < n then zeta (2 * n) (sg back * (q : ℤ) ^ 2) * data.getD q 0 else 0
  have hav : ∀ q < N, a1.getD q 0 = a q := by
    intro q hq
    simp only [a]
    by_cases hqn : q < n
    · rw [if_pos hqn, a13 q (Or.inl hqn)]
      have := u2 q hqn
      rwa [zero_add] at this
    · rw [if_neg hqn]
      have := a12 (q - n) (by omega)
      rwa [show n + (q - n) = q by omega] at this
  obtain ⟨r2, w2, hr2, r21, r22, r23⟩ := cfft_spec false hN0 a1 a1l p.work (hN ▸ hp.work)
  -- convolution
  obtain ⟨a3, ha3, a31, a32, _⟩ := fill_spec N 0 r2 (fun m akf => do
    let a ← rd akf (m : ℤ)
    let b ← rd p.bkf (m : ℤ)
    wr akf (m : ℤ) (mulpm (!back) b a)) (fun m => mulpm (!back) (p.bkf.getD m 0) (r2.getD m 0)) N (by omega) r21
    (by
      intro m hm c hc hx
      rw [rdD (by omega), ok_bind, rdD (by omega), ok_bind, hx m (by omega), zero_add])
  have hc3 : convAk back p.n2 p.bkf r2 = ok a3 := by unfold convAk; rw [← hN]; exact ha3
  obtain ⟨r4, w4, hr4, r41, r42, r43⟩ := cfft_spec true hN0 a3 a31 w2 r22
  obtain ⟨d, hdd, d1, d2, _⟩ := fill_spec n 0 data (fun m data => do
    let b ← rd p.bk (m : ℤ)
    let a ← rd r4 (m : ℤ)
    wr data (m : ℤ) (mulpm back b a)) (fun m => zeta (2 * n) (sg back * (m : ℤ) ^ 2) * r4.getD m 0) n (by omega) hd
    (by
      intro m hm c _ _
      rw [rdD (by omega), ok_bind, rdD (by omega), ok_bind, hp.bk m hm, mulpm_zeta, zero_add])
  refine ⟨d, { p with work := w4, akf := r4 }, ?_, d1, ⟨hp.n2, hp.n2pos, hp.bkl, hp.bk, hp.bkf, hN ▸ r42, by rw [r41]; exact hN⟩, fun k hk => ?_⟩
  · unfold bluestein
    rw [ha1, ok_bind, ← hN, hr2, ok_bind]
    dsimp only
    rw [hN, hc3, ok_bind, ← hN, hr4, ok_bind]
    dsimp only
    unfold finish
    rw [hdd, ok_bind]
  have hdk := d2 k hk
  rw [zero_add] at hdk
  rw [hdk, r43 k (by omega)]
  rw [← bluestein_alg back h1 hNn B data B2 a (fun _ => rfl) k hk]
  congr 1
  apply sum_congr rfl
  intro j hj
  rw [mem_range] at hj
  have h3 := a32 j hj
  rw [zero_add] at h3
  rw [h3, B4 j hj, r23 j hj]
  congr 2
  apply sum_congr rfl
  intro q hq
  rw [mem_range] at hq
  rw [hav q hq]

end Verif.Fft
