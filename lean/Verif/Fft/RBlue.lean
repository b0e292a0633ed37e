import Verif.Fft.RFactor
import Verif.Fft.BlueProof

/-! # Rounding errors of Bluestein's algorithm -/

namespace Verif.Fft
open Verif Res Finset
open Verif.Num (Near)

theorem ext_getD {N : ℕ} {a b : List ℂ} (ha : a.length = N) (hb : b.length = N) (h : ∀ q < N, a.getD q 0 = b.getD q 0) : a = b := by
  apply List.ext_getElem (by omega)
  intro x h1 h2
  simpa [List.getD, h1, h2] using h x (by omega)

section
variable {f : FA} {u κ : ℝ} (A : FAcc f u κ)
include A

/-- Product of two computed numbers. -/
theorem mulG_step (back : Bool) {a k m : ℕ} (h : a + k + 3 ≤ m) {w W : ℂ} {R : ℝ} (hw : Near (rho u κ ^ a) w W R) {x y : ℂ} {Q : ℝ}
    (hx : Near (rho u κ ^ k) x y Q) : Near (rho u κ ^ m) (f.mul back w x) (mulpm back W y) (R * Q) := by
  have key : ∀ w W v : ℂ, Near (rho u κ ^ a) w W R → ‖v - w * x‖ ≤ 2 * u * (‖w‖ * ‖x‖) → Near (rho u κ ^ m) (f.rc v) (W * y) (R * Q) := by
    intro w W v hw hv
    have h2 := (hw.mul hx).round (u := 2 * u) (by linarith [A.u0]) (r := v) (by rw [norm_mul]; exact hv)
    have h3 : Near (rho u κ ^ (a + k + 2)) v (W * y) (R * Q) := by
      refine h2.mono ?_ le_rfl
      rw [pow_add, pow_add, pow_two]
      have p : 0 ≤ rho u κ ^ a * rho u κ ^ k := mul_nonneg (zero_le_one.trans (one_le_pow₀ A.rho1)) (zero_le_one.trans (one_le_pow₀ A.rho1))
      refine mul_le_mul_of_nonneg_left ?_ p
      have q := A.u0
      have r := A.u_le
      nlinarith [mul_le_mul r r (by linarith) (by linarith)]
    exact round_step A (by omega) h3
  have n1 := Num.cs_le w x
  have n2 := Num.cs_le' w x
  have q1 := A.rnd (w.re * x.re)
  have q2 := A.rnd (w.im * x.im)
  have q3 := A.rnd (w.re * x.im)
  have q4 := A.rnd (w.im * x.re)
  have u0 := A.u0
  have m1 := mul_le_mul_of_nonneg_left n1 u0
  have m2 := mul_le_mul_of_nonneg_left n2 u0
  rw [mul_add] at m1 m2
  have tri : ∀ p p' q q' : ℝ, |(p + q) - (p' + q')| ≤ |p - p'| + |q - q'| := fun p p' q q' => by
    rw [show (p + q) - (p' + q') = (p - p') + (q - q') by ring]; exact abs_add_le _ _
  have tri' : ∀ p p' q q' : ℝ, |(p - q) - (p' - q')| ≤ |p - p'| + |q - q'| := fun p p' q q' => by
    rw [show (p - q) - (p' - q') = (p - p') - (q - q') by ring]; exact abs_sub _ _
  cases back with
  | true =>
    rw [mulpm_true]
    have : f.mul true w x = f.rc ⟨f.rb (w.re * x.re) - f.rb (w.im * x.im), f.rb (w.re * x.im) + f.rb (w.im * x.re)⟩ := rfl
    rw [this]
    refine key w W _ hw ((Complex.norm_le_abs_re_add_abs_im _).trans ?_)
    simp only [Complex.sub_re, Complex.sub_im, Complex.mul_re, Complex.mul_im]
    have t1 := tri' (f.rb (w.re * x.re)) (w.re * x.re) (f.rb (w.im * x.im)) (w.im * x.im)
    have t2 := tri (f.rb (w.re * x.im)) (w.re * x.im) (f.rb (w.im * x.re)) (w.im * x.re)
    linarith
  | false =>
    rw [mulpm_conj]
    have : f.mul false w x = f.rc ⟨f.rb (w.re * x.re) + f.rb (w.im * x.im), f.rb (w.re * x.im) - f.rb (w.im * x.re)⟩ := rfl
    rw [this]
    have hc : Near (rho u κ ^ a) ((starRingEnd ℂ) w) ((starRingEnd ℂ) W) R :=
      ⟨hw.one_le, by rw [← map_sub, RCLike.norm_conj]; exact hw.err, by rw [RCLike.norm_conj]; exact hw.bound⟩
    refine key ((starRingEnd ℂ) w) _ _ hc ((Complex.norm_le_abs_re_add_abs_im _).trans ?_)
    rw [RCLike.norm_conj]
    simp only [Complex.sub_re, Complex.sub_im, Complex.mul_re, Complex.mul_im, Complex.conj_re, Complex.conj_im, neg_mul, sub_neg_eq_add, ← sub_eq_add_neg]
    have t1 := tri (f.rb (w.re * x.re)) (w.re * x.re) (f.rb (w.im * x.im)) (w.im * x.im)
    have t2 := tri' (f.rb (w.re * x.im)) (w.re * x.im) (f.rb (w.im * x.re)) (w.im * x.re)
    linarith

/-- A transform of computed input. -/
theorem dft_comp (back : Bool) {N E a k : ℕ} {r : ℂ} {c : ℕ → ℂ} {X : ℕ → ℂ} {Q : ℕ → ℝ}
    (hr : Near (rho u κ ^ E) r (∑ q ∈ range N, c q * zeta N (sg back * (k * q))) (∑ q ∈ range N, ‖c q‖))
    (hc : ∀ q < N, Near (rho u κ ^ a) (c q) (X q) (Q q)) :
    Near (rho u κ ^ (a + E)) r (∑ q ∈ range N, X q * zeta N (sg back * (k * q))) (∑ q ∈ range N, Q q) := by
  have n1 : ∀ g : ℕ → ℂ, ∀ P : ℕ → ℝ, (∀ q < N, ‖g q‖ ≤ P q) → ‖∑ q ∈ range N, g q * zeta N (sg back * (k * q))‖ ≤ ∑ q ∈ range N, P q := by
    intro g P h
    refine (norm_sum_le _ _).trans (sum_le_sum fun q hq => ?_)
    rw [norm_mul, norm_zeta, mul_one]; exact h q (mem_range.mp hq)
  refine ⟨one_le_pow₀ A.rho1, ?_, n1 X Q fun q hq => (hc q hq).bound⟩
  have hs : ∑ q ∈ range N, ‖c q‖ ≤ rho u κ ^ a * ∑ q ∈ range N, Q q := by
    rw [mul_sum]; exact sum_le_sum fun q hq => (hc q (mem_range.mp hq)).norm_le
  have h1 := hr.err.trans (mul_le_mul_of_nonneg_left hs (by linarith [hr.one_le]))
  have h2 : ‖∑ q ∈ range N, c q * zeta N (sg back * (k * q)) - ∑ q ∈ range N, X q * zeta N (sg back * (k * q))‖ ≤
      (rho u κ ^ a - 1) * ∑ q ∈ range N, Q q := by
    rw [← sum_sub_distrib]
    simp only [← sub_mul]
    rw [mul_sum]
    exact n1 (fun q => c q - X q) _ fun q hq => (hc q hq).err
  have tri := norm_add_le (r - ∑ q ∈ range N, c q * zeta N (sg back * (k * q)))
    (∑ q ∈ range N, c q * zeta N (sg back * (k * q)) - ∑ q ∈ range N, X q * zeta N (sg back * (k * q)))
  rw [sub_add_sub_cancel] at tri
  calc _ ≤ _ := tri.trans (add_le_add h1 h2)
    _ = _ := by rw [pow_add]; ring

/-! ## initialisation -/

theorem initBkR_spec (n : ℕ) (h1 : 1 ≤ n) (bk : List ℂ) (hl : bk.length = n) :
    ∃ r, initBkR f n bk = ok r ∧ r.length = n ∧ ∀ m < n, ‖r.getD m 0 - zeta (2 * n) ((m : ℤ) ^ 2)‖ ≤ tabErr u κ := by
  unfold initBkR
  rw [show (0 : ℤ) = ((0 : ℕ) : ℤ) by rfl, wr_nat _ (by omega), ok_bind]
  obtain ⟨⟨cf, r⟩, hr, _, a1, a2, a3⟩ := forN_inv (n - 1) (fun m0 (st : ℕ × List ℂ) => do
    let m := m0 + 1
    let coeff := st.1 + (2 * m - 1)
    let coeff := if coeff ≥ 2 * n then coeff - 2 * n else coeff
    let bk ← wr st.2 (m : ℤ) (f.cis (f.rb (f.rb (f.pi / n) * coeff)))
    ok (coeff, bk)) (0, bk.set 0 1)
    (fun k st => st.1 ≤ 2 * n ∧ st.2.length = n ∧ (∃ q : ℤ, (st.1 : ℤ) = (k : ℤ) ^ 2 + ((2 * n : ℕ) : ℤ) * q) ∧
      ∀ m ≤ k, ‖st.2.getD m 0 - zeta (2 * n) ((m : ℤ) ^ 2)‖ ≤ tabErr u κ)
    ⟨by simp, by simpa using hl, ⟨0, by simp⟩, fun m hm => by
      obtain rfl : m = 0 := by omega
      dsimp only
      rw [getD_set_self _ (by omega)]; simpa using A.tab0⟩
    (by
      rintro k ⟨cf, c⟩ hk ⟨b0, b1, ⟨q, b2⟩, b3⟩
      dsimp only at b0 b1 b2 b3 ⊢
      obtain ⟨cf', hcf⟩ : ∃ x, x = (if cf + (2 * (k + 1) - 1) ≥ 2 * n then cf + (2 * (k + 1) - 1) - 2 * n else cf + (2 * (k + 1) - 1)) := ⟨_, rfl⟩
      rw [← hcf]
      have hcle : cf' ≤ 2 * n := by
        split_ifs at hcf <;> omega
      obtain ⟨q', hq'⟩ : ∃ q' : ℤ, (cf' : ℤ) = ((k + 1 : ℕ) : ℤ) ^ 2 + ((2 * n : ℕ) : ℤ) * q' := by
        by_cases hc : cf + (2 * (k + 1) - 1) ≥ 2 * n
        · rw [if_pos hc] at hcf
          refine ⟨q - 1, ?_⟩
          have : (cf' : ℤ) = cf + (2 * (k + 1) - 1) - 2 * n := by omega
          rw [this, b2]; push_cast; ring
        · rw [if_neg hc] at hcf
          refine ⟨q, ?_⟩
          have : (cf' : ℤ) = cf + (2 * (k + 1) - 1) := by omega
          rw [this, b2]; push_cast; ring
      rw [wr_nat _ (by omega), ok_bind]
      refine ⟨_, rfl, hcle, by simpa using b1, ⟨q', hq'⟩, fun m hm => ?_⟩
      dsimp only
      by_cases e : m = k + 1
      · subst e
        rw [getD_set_self _ (by omega), ← zeta_mod (n := 2 * n) (by omega) (cf' : ℤ) _ q' hq', zeta_eq]
        refine cis_close A ?_
        have e : 2 * Real.pi * ((cf' : ℤ) : ℝ) / ((2 * n : ℕ) : ℝ) = Real.pi / n * cf' := by
          have : (n : ℝ) ≠ 0 := by positivity
          push_cast
          field_simp
        rw [e]
        exact ang_close A h1 hcle
      · rw [getD_set_ne _ (by omega)]; exact b3 m (by omega))
  rw [hr, ok_bind]
  exact ⟨r, rfl, a1, fun m hm => a3 m (by omega)⟩

omit A in
/-- The exact padded sequence. -/
noncomputable def padB (n n2 : ℕ) : List ℂ :=
  (List.range n2).map fun q => if q < n then zeta (2 * n) ((q : ℤ) ^ 2) * (1 / n2) else if n2 - n < q then zeta (2 * n) (((n2 - q : ℕ) : ℤ) ^ 2) * (1 / n2) else 0

omit A in
theorem padB_spec (n n2 : ℕ) (h1 : 1 ≤ n) (h2 : 2 * n - 1 ≤ n2) :
    (∀ t : ℤ, -(n : ℤ) < t → t < n → (padB n n2).getD (t % n2).toNat 0 = zeta (2 * n) (t ^ 2) * (1 / n2)) ∧
    ∀ q < n2, ‖(padB n n2).getD q 0‖ ≤ 1 / n2 := by
  have hn2 : 1 ≤ n2 := by omega
  constructor
  · intro t ht1 ht2
    unfold padB
    by_cases hpos : 0 ≤ t
    · obtain ⟨m, rfl⟩ := Int.eq_ofNat_of_zero_le hpos
      rw [Int.emod_eq_of_lt hpos (by omega), Int.toNat_natCast, getD_map_range _ _ (by omega), if_pos (by omega)]
    · obtain ⟨m, hm⟩ := Int.eq_ofNat_of_zero_le (show 0 ≤ -t by omega)
      obtain rfl : t = -(m : ℤ) := by omega
      have : (-(m : ℤ)) % n2 = ((n2 - m : ℕ) : ℤ) := by
        rw [← Int.add_emod_right, Int.emod_eq_of_lt (by omega) (by omega)]
        omega
      rw [this, Int.toNat_natCast, getD_map_range _ _ (by omega), if_neg (by omega), if_pos (by omega), show n2 - (n2 - m) = m by omega]
      ring_nf
  · intro q hq
    unfold padB
    rw [getD_map_range _ _ hq]
    have e : ∀ t : ℤ, ‖zeta (2 * n) t * (1 / (n2 : ℂ))‖ ≤ 1 / n2 := fun t => by
      rw [norm_mul, norm_zeta, one_mul, norm_div, norm_one, Complex.norm_natCast]
    split_ifs
    · exact e _
    · exact e _
    · rw [norm_zero]; positivity

theorem initBkfR_spec (n n2 : ℕ) (h1 : 1 ≤ n) (h2 : 2 * n - 1 ≤ n2) (bk bkf : List ℂ) (hbk : bk.length = n)
    (hb : ∀ m < n, ‖bk.getD m 0 - zeta (2 * n) ((m : ℤ) ^ 2)‖ ≤ tabErr u κ) (hl : bkf.length = n2) :
    ∃ r, initBkfR f n n2 bk bkf = ok r ∧ r.length = n2 ∧
      ∀ q < n2, Near (rho u κ ^ 2) (r.getD q 0) ((padB n n2).getD q 0) (1 / n2) := by
  have hn2 : (0 : ℝ) < n2 := by exact_mod_cast (show 0 < n2 by omega)
  have hx : ∀ m < n, Near (rho u κ ^ 2) (f.scl (f.rb (1 / n2)) (bk.getD m 0)) (zeta (2 * n) ((m : ℤ) ^ 2) * (1 / n2)) (1 / n2) := by
    intro m hm
    have a1 := rb_near A (Near.refl (y := 1 / (n2 : ℝ)) (Q := 1 / n2) (by rw [Real.norm_eq_abs, abs_of_nonneg (by positivity)]))
    have a2 : Near (1 * (1 + u)) ((f.rb (1 / n2) : ℝ) : ℂ) (1 / (n2 : ℂ)) (1 / n2) := by
      refine ⟨a1.one_le, ?_, ?_⟩
      · have := a1.err
        rw [Real.norm_eq_abs] at this
        rw [show (1 / (n2 : ℂ)) = ((1 / n2 : ℝ) : ℂ) by push_cast; rfl, ← Complex.ofReal_sub, Complex.norm_real]; exact this
      · rw [norm_div, norm_one, Complex.norm_natCast]
    have a3 : Near (1 + tabErr u κ) (bk.getD m 0) (zeta (2 * n) ((m : ℤ) ^ 2)) 1 :=
      ⟨by linarith [A.tab0], by linarith [hb m hm], (norm_zeta _ _).le⟩
    have a4 := a2.mul a3
    rw [mul_one, mul_comm (1 / (n2 : ℂ))] at a4
    refine round_step A (k := 1) le_rfl (a4.mono (le_of_eq ?_) le_rfl)
    unfold rho; ring
  unfold initBkfR
  dsimp only
  rw [show (0 : ℤ) = ((0 : ℕ) : ℤ) by rfl, rdD (by omega), ok_bind, wr_nat _ (by omega), ok_bind]
  obtain ⟨c, hc, c1, c2, c3⟩ := forN_inv (n - 1) (fun m0 bkf => do
    let b ← rd bk ((m0 + 1 : ℕ) : ℤ)
    let bkf ← wr bkf ((n2 : ℤ) - ((m0 + 1 : ℕ) : ℤ)) (f.scl (f.rb (1 / n2)) b)
    wr bkf ((m0 + 1 : ℕ) : ℤ) (f.scl (f.rb (1 / n2)) b)) (bkf.set 0 (f.scl (f.rb (1 / n2)) (bk.getD 0 0)))
    (fun k c => c.length = n2 ∧ (∀ m ≤ k, c.getD m 0 = f.scl (f.rb (1 / n2)) (bk.getD m 0)) ∧
      (∀ m, 1 ≤ m → m ≤ k → c.getD (n2 - m) 0 = f.scl (f.rb (1 / n2)) (bk.getD m 0)))
    ⟨by simpa using hl, fun m hm => by
      obtain rfl : m = 0 := by omega
      rw [getD_set_self _ (by omega)], by omega⟩
    (by
      rintro k c hk ⟨b1, b2, b3⟩
      rw [rdD (by omega), ok_bind, show ((n2 : ℤ) - ((k + 1 : ℕ) : ℤ)) = ((n2 - (k + 1) : ℕ) : ℤ) by omega, wr_nat _ (by omega), ok_bind,
        wr_nat _ (by rw [List.length_set]; omega)]
      refine ⟨_, rfl, by simpa using b1, fun m hm => ?_, fun m hm1 hm2 => ?_⟩
      · by_cases e : m = k + 1
        · subst e; rw [getD_set_self _ (by rw [List.length_set]; omega)]
        · rw [getD_set_ne _ (by omega), getD_set_ne _ (by omega)]; exact b2 m (by omega)
      · by_cases e : m = k + 1
        · subst e
          rw [getD_set_ne _ (by omega), getD_set_self _ (by omega)]
        · rw [getD_set_ne _ (by omega), getD_set_ne _ (by omega)]; exact b3 m hm1 (by omega))
  rw [hc, ok_bind]
  obtain ⟨r, hr, r1, r2, r3⟩ := fill_spec (n2 + 1 - 2 * n) n c (fun m0 bkf => wr bkf ((n + m0 : ℕ) : ℤ) 0) (fun _ => 0) n2 (by omega) c1
    (fun m hm c _ _ => rfl)
  refine ⟨r, hr, r1, fun q hq => ?_⟩
  unfold padB
  rw [getD_map_range _ _ hq]
  by_cases q1 : q < n
  · rw [if_pos q1, r3 q (Or.inl q1), c2 q (by omega)]; exact hx q q1
  rw [if_neg q1]
  by_cases q2 : n2 - n < q
  · rw [if_pos q2, r3 q (Or.inr (by omega))]
    have := c3 (n2 - q) (by omega) (by omega)
    rw [show n2 - (n2 - q) = q by omega] at this
    rw [this]; exact hx (n2 - q) (by omega)
  · rw [if_neg q2]
    have := r2 (q - n) (by omega)
    rw [show n + (q - n) = q by omega] at this
    rw [this]
    exact nearP A (Nat.zero_le 2) (Near.mono (Near.refl (y := (0 : ℂ)) (Q := 1 / n2) (by rw [norm_zero]; positivity)) (by simp) le_rfl)

end

/-- Valid storage for length `n`. -/
structure BPlanOkR (f : FA) (u κ : ℝ) (n : ℕ) (p : BPlan) : Prop where
  n2 : 2 * n - 1 ≤ p.n2
  n2le : p.n2 ≤ 4 * n
  bkl : p.bk.length = n
  bk : ∀ m < n, ‖p.bk.getD m 0 - zeta (2 * n) ((m : ℤ) ^ 2)‖ ≤ tabErr u κ
  bkfl : p.bkf.length = p.n2
  bkf : ∀ j < p.n2, Near (rho u κ ^ 223) (p.bkf.getD j 0) (∑ q ∈ range p.n2, (padB n p.n2).getD q 0 * zeta p.n2 (sg false * (j * q))) 1
  work : WorkOkR (tabErr u κ) 221 p.n2 p.work
  akf : p.akf.length = p.n2

section
variable {f : FA} {u κ : ℝ} (A : FAcc f u κ)
include A

theorem bluesteinIR_spec (n : ℕ) (h1 : 1 ≤ n) (hn : 4 * n ≤ 3 ^ 14) (g : ℂ) : ∃ p, bluesteinIR f n g = ok p ∧ BPlanOkR f u κ n p := by
  obtain ⟨n2, hg, g1, g2, g3, _⟩ := goodSize_spec (n * 2 - 1) (by omega)
  obtain ⟨bk, hbk, b1, b2⟩ := initBkR_spec A n h1 (List.replicate n g) (by simp)
  obtain ⟨B, hB, B1, B2⟩ := initBkfR_spec A n n2 h1 (by omega) bk (List.replicate n2 g) b1 b2 (by simp)
  have hE : ∀ r, factorize n2 = ok r → facExp r ≤ 221 ∨ n2 = 1 := by
    intro r hr
    by_cases h : n2 = 1
    · exact Or.inr h
    · exact Or.inl (facExp_smooth n2 (by clear g3; omega) (by clear g3; omega) g3 r hr)
  have hw : ∃ w, cfftiR f n2 g = ok w ∧ WorkOkR (tabErr u κ) 221 n2 w := by
    by_cases h : n2 = 1
    · refine ⟨⟨List.replicate n2 g, List.replicate n2 g, []⟩, ?_, by simp, fun h' => absurd h h', by simp [facExp]⟩
      unfold cfftiR; rw [if_neg (by simpa using h)]
    · exact cfftiR_spec A n2 221 (by clear g3; omega) (by clear g3; omega) (fun r hr => (hE r hr).resolve_right h) g
  obtain ⟨w, hw, w1⟩ := hw
  obtain ⟨r, r1, hr, r3⟩ := cfftR_spec A false (by clear g3; omega) B B1 w w1
  obtain ⟨ch', hr, hl⟩ := hr w.ch w1.ch
  have hn2 : (n2 : ℝ) ≠ 0 := by exact_mod_cast (show n2 ≠ 0 by clear g3; omega)
  refine ⟨⟨n2, bk, r, { w with ch := ch' }, List.replicate n2 g⟩, ?_,
    ⟨by dsimp only; clear g3; omega, by dsimp only; clear g3; omega, b1, b2, r1, fun j hj => ?_, ⟨hl, w1.tab, w1.exp⟩, by simp⟩⟩
  · unfold bluesteinIR
    rw [hg, ok_bind, hbk, ok_bind, hB, ok_bind, hw, ok_bind]
    have e : ({ w with ch := w.ch } : Work) = w := rfl
    rw [e] at hr
    rw [hr, ok_bind]
  · have := dft_comp A false (r3 j hj) B2
    rw [sum_const, card_range, nsmul_eq_mul, mul_one_div_cancel hn2] at this
    exact this

/-- The transform of length `n`: independent of the scratch buffers, and accurate. -/
theorem bluesteinR_spec (back : Bool) {n : ℕ} (h1 : 1 ≤ n) (p : BPlan) (hp : BPlanOkR f u κ n p) (data : List ℂ) (hd : data.length = n) :
    ∃ r, r.length = n ∧ (∀ ch akf : List ℂ, ch.length = p.n2 → akf.length = p.n2 → ∃ ch' akf' : List ℂ, ch'.length = p.n2 ∧ akf'.length = p.n2 ∧
      bluesteinR f back n data { p with work := { p.work with ch := ch }, akf := akf } =
        ok (r, { p with work := { p.work with ch := ch' }, akf := akf' })) ∧
      ∀ k < n, Near (rho u κ ^ 674) (r.getD k 0) (∑ q ∈ range n, data.getD q 0 * zeta n (sg back * (k * q)))
        (4 * n * ∑ q ∈ range n, ‖data.getD q 0‖) := by
  obtain ⟨N, hN⟩ : ∃ N, N = p.n2 := ⟨_, rfl⟩
  have hNn : 2 * n - 1 ≤ N := hN ▸ hp.n2
  have hNle : N ≤ 4 * n := hN ▸ hp.n2le
  have hN0 : 1 ≤ N := by omega
  have hbkl := hp.bkl
  have hbkf := hp.bkf
  have hbkfl := hp.bkfl
  have hwork := hp.work
  rw [← hN] at hbkf hbkfl hwork
  let S : ℝ := ∑ q ∈ range n, ‖data.getD q 0‖
  have hS : 0 ≤ S := sum_nonneg fun _ _ => norm_nonneg _
  -- a_k
  let a1 : List ℂ := (List.range N).map fun q => if q < n then f.mul back (p.bk.getD q 0) (data.getD q 0) else 0
  have a1l : a1.length = N := by simp [a1]
  have ha1 : ∀ akf : List ℂ, akf.length = N → initAkR f back n N data p.bk akf = ok a1 := by
    intro akf hakf
    obtain ⟨v, hu, u1, u2, u3⟩ := fill_spec n 0 akf (fun m akf => do
      let d ← rd data (m : ℤ)
      let b ← rd p.bk (m : ℤ)
      wr akf (m : ℤ) (f.mul back b d)) (fun m => f.mul back (p.bk.getD m 0) (data.getD m 0)) N (by omega) hakf
      (by
        intro m hm c _ _
        rw [rdD (by omega), ok_bind, rdD (by omega), ok_bind, zero_add])
    obtain ⟨w, hw, wl, w2, w3⟩ := fill_spec (N - n) n v (fun m0 akf => wr akf ((n + m0 : ℕ) : ℤ) 0) (fun _ => 0) N (by omega) u1
      (fun m hm c _ _ => rfl)
    unfold initAkR
    rw [hu, ok_bind, hw]
    congr 1
    apply ext_getD wl a1l
    intro q hq
    simp only [a1]
    rw [getD_map_range _ _ hq]
    by_cases hqn : q < n
    · rw [if_pos hqn, w3 q (Or.inl hqn)]
      have := u2 q hqn
      rwa [zero_add] at this
    · rw [if_neg hqn]
      have := w2 (q - n) (by omega)
      rwa [show n + (q - n) = q by omega] at this
  let a : ℕ → ℂ := fun q => if q < n then zeta (2 * n) (sg back * (q : ℤ) ^ 2) * data.getD q 0 else 0
  have hav : ∀ q < N, Near (rho u κ ^ 3) (a1.getD q 0) (a q) (if q < n then ‖data.getD q 0‖ else 0) := by
    intro q hq
    simp only [a1, a]
    rw [getD_map_range _ _ hq]
    by_cases hqn : q < n
    · rw [if_pos hqn, if_pos hqn, if_pos hqn, ← mulpm_zeta]
      exact mul_step A back (k := 0) le_rfl (hp.bk q hqn) (norm_zeta _ _).le (near0 _)
    · rw [if_neg hqn, if_neg hqn, if_neg hqn]
      exact nearP A (Nat.zero_le 3) (by simpa using near0 (u := u) (κ := κ) 0)
  have hQa : ∑ q ∈ range N, (if q < n then ‖data.getD q 0‖ else 0) = S := by
    simp only [S]
    rw [← sum_filter]
    congr 1
    ext q; simp only [mem_filter, mem_range]; omega
  obtain ⟨r2, r21, r22, r23⟩ := cfftR_spec A false hN0 a1 a1l p.work hwork
  have n2' : ∀ j < N, Near (rho u κ ^ 224) (r2.getD j 0) (∑ q ∈ range N, a q * zeta N (sg false * (j * q))) S := by
    intro j hj
    have := dft_comp A false (r23 j hj) hav
    rwa [hQa] at this
  -- convolution
  obtain ⟨a3, ha3, a31, a32, _⟩ := fill_spec N 0 r2 (fun m akf => do
    let a ← rd akf (m : ℤ)
    let b ← rd p.bkf (m : ℤ)
    wr akf (m : ℤ) (f.mul (!back) b a)) (fun m => f.mul (!back) (p.bkf.getD m 0) (r2.getD m 0)) N (by omega) r21
    (by
      intro m hm c hc hx
      rw [rdD (by omega), ok_bind, rdD (by omega), ok_bind, hx m (by omega), zero_add])
  have hc3 : convAkR f back N p.bkf r2 = ok a3 := ha3
  have n3 : ∀ j < N, Near (rho u κ ^ 450) (a3.getD j 0) (mulpm (!back) (∑ q ∈ range N, (padB n N).getD q 0 * zeta N (sg false * (j * q)))
      (∑ q ∈ range N, a q * zeta N (sg false * (j * q)))) S := by
    intro j hj
    have e := a32 j hj
    rw [zero_add] at e
    rw [e]
    have := mulG_step A (!back) (a := 223) (k := 224) (m := 450) (by norm_num) (hbkf j hj) (n2' j hj)
    rwa [one_mul] at this
  obtain ⟨r4, r41, r42, r43⟩ := cfftR_spec A true hN0 a3 a31 p.work hwork
  obtain ⟨d, hdd, d1, d2, _⟩ := fill_spec n 0 data (fun m data => do
    let b ← rd p.bk (m : ℤ)
    let a ← rd r4 (m : ℤ)
    wr data (m : ℤ) (f.mul back b a)) (fun m => f.mul back (p.bk.getD m 0) (r4.getD m 0)) n (by omega) hd
    (by
      intro m hm c _ _
      rw [rdD (by omega), ok_bind, rdD (by omega), ok_bind, zero_add])
  refine ⟨d, d1, fun ch akf hch hakf => ?_, fun k hk => ?_⟩
  · obtain ⟨ch2, e2, l2⟩ := r22 ch (by omega)
    obtain ⟨ch4, e4, l4⟩ := r42 ch2 l2
    refine ⟨ch4, r4, by omega, by omega, ?_⟩
    unfold bluesteinR
    dsimp only
    rw [← hN, ha1 akf (by omega), ok_bind, e2, ok_bind]
    dsimp only
    rw [hc3, ok_bind, e4, ok_bind]
    dsimp only
    unfold finishR
    rw [hdd, ok_bind]
  · have e := d2 k hk
    rw [zero_add] at e
    rw [e, ← bluestein_alg back h1 hNn (padB n N) data (padB_spec n N h1 hNn).1 a (fun _ => rfl) k hk, ← mulpm_zeta]
    have h4 := dft_comp A true (r43 k (by omega)) n3
    rw [sum_const, card_range, nsmul_eq_mul] at h4
    have h5 := mul_step A back (k := 671) (m := 674) (by norm_num) (hp.bk k hk) (norm_zeta _ _).le h4
    refine h5.mono le_rfl (mul_le_mul_of_nonneg_right ?_ hS)
    exact_mod_cast hNle

end
end Verif.Fft
