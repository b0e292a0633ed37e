import Verif.Fft.RStage
import Verif.Fft.Factor
import Mathlib.Analysis.Real.Pi.Bounds

/-! # Rounding errors of the table; the transform `cfftf`/`cfftb` -/

namespace Verif.Fft
open Verif Res Finset
open Verif.Num (Near)

/-! ## angles -/

theorem cis_close {f : FA} {u κ : ℝ} (A : FAcc f u κ) {a θ : ℝ} (h : |a - θ| ≤ 7 * ((1 + u) ^ 4 - 1)) : ‖f.cis a - cis θ‖ ≤ tabErr u κ := by
  refine (Complex.norm_le_abs_re_add_abs_im _).trans ?_
  have hc : |Real.cos a - Real.cos θ| ≤ |a - θ| := Real.abs_cos_sub_cos_le a θ
  have hs : |Real.sin a - Real.sin θ| ≤ |a - θ| := Real.abs_sin_sub_sin_le a θ
  have h1 : |f.cosF a - Real.cos θ| ≤ |f.cosF a - Real.cos a| + |Real.cos a - Real.cos θ| := abs_sub_le _ _ _
  have h2 : |f.sinF a - Real.sin θ| ≤ |f.sinF a - Real.sin a| + |Real.sin a - Real.sin θ| := abs_sub_le _ _ _
  have h3 := A.cos a
  have h4 := A.sin a
  simp only [FA.cis, cis, Complex.sub_re, Complex.sub_im]
  unfold tabErr
  linarith

section
variable {f : FA} {u κ : ℝ} (A : FAcc f u κ)
include A

theorem rb_near {c x y Q : ℝ} (h : Near c x y Q) : Near (c * (1 + u)) (f.rb x) y Q :=
  h.round A.u0 (by simpa [Real.norm_eq_abs] using A.rnd x)

theorem scale_near {c x y Q : ℝ} (h : Near c x y Q) {b : ℝ} (hb : 0 ≤ b) : Near c (b * x) (b * y) (b * Q) := by
  have := (Near.refl (y := b) (Q := b) (by rw [Real.norm_eq_abs, abs_of_nonneg hb])).mul h
  rwa [one_mul] at this

theorem close_of_near {x y : ℝ} (h : Near ((1 + u) ^ 4) x y y) (hy : y ≤ 2 * Real.pi) : |x - y| ≤ 7 * ((1 + u) ^ 4 - 1) := by
  have := h.err
  rw [Real.norm_eq_abs] at this
  refine this.trans ?_
  have h1 := one_le_pow4 A.u0 4
  rw [mul_comm]
  exact mul_le_mul_of_nonneg_right (hy.trans (by linarith [Real.pi_lt_d2])) (by linarith)

theorem arg_close {n l1 j fi : ℕ} (hn : 1 ≤ n) (hle : j * l1 * fi ≤ n) :
    |f.arg n l1 j fi - 2 * Real.pi * ((j * l1 * fi : ℕ) : ℝ) / n| ≤ 7 * ((1 + u) ^ 4 - 1) := by
  have hn' : (0 : ℝ) < n := by exact_mod_cast hn
  have t0 : Near (1 + u) f.twopi (2 * Real.pi) (2 * Real.pi) := by
    refine ⟨by linarith [A.u0], ?_, by rw [Real.norm_eq_abs, abs_of_nonneg (by positivity)]⟩
    rw [Real.norm_eq_abs]; linarith [A.twopi]
  have t1 := rb_near A (scale_near A t0 (b := 1 / n) (by positivity))
  have t2 := rb_near A (scale_near A t1 (b := ((j * l1 : ℕ) : ℝ)) (by positivity))
  have t3 := rb_near A (scale_near A t2 (b := (fi : ℝ)) (by positivity))
  have e : (fi : ℝ) * (((j * l1 : ℕ) : ℝ) * (1 / n * (2 * Real.pi))) = 2 * Real.pi * ((j * l1 * fi : ℕ) : ℝ) / n := by push_cast; field_simp
  rw [show 1 / (n : ℝ) * f.twopi = f.twopi / n by ring, e] at t3
  refine close_of_near A (t3.mono (le_of_eq (by ring)) le_rfl) ?_
  rw [div_le_iff₀ hn']
  exact mul_le_mul_of_nonneg_left (by exact_mod_cast hle) (by positivity)

/-- Angles of Bluestein's factors. -/
theorem ang_close {n c : ℕ} (hn : 1 ≤ n) (hle : c ≤ 2 * n) :
    |f.rb (f.rb (f.pi / n) * c) - Real.pi / n * c| ≤ 7 * ((1 + u) ^ 4 - 1) := by
  have hn' : (0 : ℝ) < n := by exact_mod_cast hn
  have t0 : Near (1 + u) f.pi Real.pi Real.pi := by
    refine ⟨by linarith [A.u0], ?_, by rw [Real.norm_eq_abs, abs_of_nonneg (by positivity)]⟩
    rw [Real.norm_eq_abs]; linarith [A.pi]
  have t1 := rb_near A (scale_near A t0 (b := 1 / n) (by positivity))
  have t2 := rb_near A (scale_near A t1 (b := (c : ℝ)) (by positivity))
  rw [show 1 / (n : ℝ) * f.pi = f.pi / n by ring, mul_comm (c : ℝ), show (c : ℝ) * (1 / n * Real.pi) = Real.pi / n * c by ring] at t2
  refine close_of_near A (t2.mono ?_ le_rfl) ?_
  · have := one_le_pow4 A.u0 3
    nlinarith [A.u0]
  · rw [div_mul_eq_mul_div, div_le_iff₀ hn']
    have : (c : ℝ) ≤ 2 * n := by exact_mod_cast hle
    nlinarith [Real.pi_pos]

/-! ## table -/

theorem twRowR_spec (n ip ido l1 j is : ℕ) (hn : 1 ≤ n) (hle : j * l1 * ido ≤ n) (wa : List ℂ) (hl : is + ido < wa.length) :
    ∃ wa', twRowR f n ip ido l1 j (is, wa) = ok (is + ido, wa') ∧ wa'.length = wa.length ∧
      (∀ x < is, wa'.getD x 0 = wa.getD x 0) ∧
      (∀ i, 1 ≤ i → i ≤ ido → ‖wa'.getD (is + i) 0 - zeta n ((j * l1 * i : ℕ) : ℤ)‖ ≤ tabErr u κ) ∧
      (ip ≤ 6 → wa'.getD is 0 = 1) ∧ (6 < ip → 1 ≤ ido → ‖wa'.getD is 0 - zeta n ((j * l1 * ido : ℕ) : ℤ)‖ ≤ tabErr u κ) := by
  unfold twRowR
  dsimp only
  rw [wr_nat _ (by omega), ok_bind]
  obtain ⟨w, hr, h1, h2, h3, h4⟩ := forN_inv ido (fun fi wa => wr wa ((is + (fi + 1) : ℕ) : ℤ)
      (f.cis (f.arg n l1 j (fi + 1)))) (wa.set is 1)
    (fun m w => w.length = wa.length ∧ (∀ x < is, w.getD x 0 = wa.getD x 0) ∧
      (∀ i, 1 ≤ i → i ≤ m → ‖w.getD (is + i) 0 - zeta n ((j * l1 * i : ℕ) : ℤ)‖ ≤ tabErr u κ) ∧ w.getD is 0 = 1)
    ⟨by simp, fun x hx => getD_set_ne _ (by omega), by omega, getD_set_self _ (by omega)⟩
    (by
      rintro m w hm ⟨h1, h2, h3, h4⟩
      rw [wr_nat _ (by omega)]
      refine ⟨_, rfl, by simpa using h1, fun x hx => ?_, fun i hi1 hi2 => ?_, ?_⟩
      · rw [getD_set_ne _ (by omega)]; exact h2 x hx
      · by_cases e : i = m + 1
        · subst e
          rw [getD_set_self _ (by omega), zeta_eq]
          exact cis_close A (arg_close A hn ((Nat.mul_le_mul_left _ hm).trans hle))
        · rw [getD_set_ne _ (by omega)]; exact h3 i hi1 (by omega)
      · rw [getD_set_ne _ (by omega)]; exact h4)
  rw [hr, ok_bind]
  by_cases h6 : ip > 6
  · rw [if_pos h6, rdD (by omega), ok_bind, wr_nat _ (by omega), ok_bind]
    refine ⟨_, rfl, by simpa using h1, fun x hx => ?_, fun i hi1 hi2 => ?_, by omega, fun _ hi => ?_⟩
    · rw [getD_set_ne _ (by omega)]; exact h2 x hx
    · rw [getD_set_ne _ (by omega)]; exact h3 i hi1 hi2
    · rw [getD_set_self _ (by omega)]; exact h3 ido hi (le_refl _)
  · rw [if_neg h6]
    exact ⟨w, rfl, h1, h2, h3, fun _ => h4, by omega⟩

theorem twStepR_spec (n ip ido : ℕ) (s : IS) (hn : n = ido * (s.l1 * ip)) (h0 : n ≠ 0) (hip : 1 ≤ ip)
    (hi : s.i + (ip - 1) * ido < s.wa.length) :
    ∃ wa', twStepR f n s ip = ok ⟨s.l1 * ip, s.i + (ip - 1) * ido, wa'⟩ ∧ wa'.length = s.wa.length ∧
      (∀ x < s.i, wa'.getD x 0 = s.wa.getD x 0) ∧ TabRowR (tabErr u κ) n wa' s.l1 ip ido s.i := by
  have hpos : 0 < s.l1 * ip := Nat.pos_of_ne_zero (by rintro h; apply h0; rw [hn, h, mul_zero])
  have hido0 : 1 ≤ ido := Nat.pos_of_ne_zero (by rintro h; apply h0; rw [hn, h, zero_mul])
  have hido : n / (s.l1 * ip) = ido := by rw [hn]; exact Nat.mul_div_cancel _ hpos
  unfold twStepR
  dsimp only
  rw [hido]
  obtain ⟨⟨i', w⟩, hr, g0, h1, h2, h3, h4⟩ := forN_inv (ip - 1) (fun j0 st => twRowR f n ip ido s.l1 (j0 + 1) st) (s.i, s.wa)
    (fun m st => st.1 = s.i + m * ido ∧ st.2.length = s.wa.length ∧ (∀ x < s.i, st.2.getD x 0 = s.wa.getD x 0) ∧
      (∀ j, 1 ≤ j → j ≤ m → ∀ i < ido, (i ≠ 0 ∨ ip ≤ 6) → ‖st.2.getD (s.i + i + (j - 1) * ido) 0 - zeta n (j * s.l1 * i)‖ ≤ tabErr u κ) ∧
      (6 < ip → ∀ j, 1 ≤ j → j ≤ m → ‖st.2.getD (s.i + (j - 1) * ido) 0 - zeta ip j‖ ≤ tabErr u κ))
    ⟨by simp, rfl, fun _ _ => rfl, by omega, by omega⟩
    (by
      rintro m ⟨i', w⟩ hm ⟨g0, h1, h2, h3, h4⟩
      dsimp only at g0 h1 h2 h3 h4
      subst g0
      have hb : (m + 1) * ido ≤ (ip - 1) * ido := Nat.mul_le_mul_right _ (by omega)
      rw [add_mul] at hb
      have hle : (m + 1) * s.l1 * ido ≤ n := by
        rw [hn, show ido * (s.l1 * ip) = ip * s.l1 * ido by ring]
        exact Nat.mul_le_mul_right _ (Nat.mul_le_mul_right _ (by omega))
      obtain ⟨w', hr, k1, k2, k3, k4, k5⟩ := twRowR_spec A n ip ido s.l1 (m + 1) (s.i + m * ido) (by omega) hle w (by omega)
      refine ⟨_, hr, by dsimp only; ring, by dsimp only; omega, fun x hx => ?_, fun j hj1 hj2 i hi hc => ?_, fun h6 j hj1 hj2 => ?_⟩
      · dsimp only; rw [k2 x (by omega)]; exact h2 x hx
      · dsimp only
        by_cases e : j = m + 1
        · subst e
          rw [Nat.add_sub_cancel]
          rcases Nat.eq_zero_or_pos i with rfl | hpi
          · have := k4 (by omega)
            rw [add_zero, this]; simpa using A.tab0
          · rw [show s.i + i + m * ido = s.i + m * ido + i by ring]
            have := k3 i hpi (by omega)
            push_cast at this ⊢
            exact this
        · have hjm : (j - 1 + 1) * ido ≤ m * ido := Nat.mul_le_mul_right _ (by omega)
          rw [add_mul] at hjm
          rw [k2 _ (by omega)]; exact h3 j hj1 (by omega) i hi hc
      · dsimp only
        by_cases e : j = m + 1
        · subst e
          rw [Nat.add_sub_cancel]
          have := k5 h6 hido0
          rw [← zeta_scale (n := n) (m := s.l1 * ido) (k := ip) (by rw [hn]; ring)
            (by rintro h; apply h0; rw [hn, show ido * (s.l1 * ip) = s.l1 * ido * ip by ring, h, zero_mul])]
          rwa [show ((((m + 1) * s.l1 * ido : ℕ)) : ℤ) = ((s.l1 * ido : ℕ) : ℤ) * ((m + 1 : ℕ) : ℤ) by push_cast; ring] at this
        · have hjm : (j - 1 + 1) * ido ≤ m * ido := Nat.mul_le_mul_right _ (by omega)
          rw [add_mul] at hjm
          rw [k2 _ (by omega)]; exact h4 h6 j hj1 (by omega))
  dsimp only at g0 h1 h2 h3 h4
  rw [hr, ok_bind]
  refine ⟨w, by rw [g0], h1, h2, ⟨by omega, fun j hj1 hj2 i hi hc => h3 j hj1 (by omega) i hi hc, fun h6 j hj1 hj2 => h4 h6 j hj1 (by omega)⟩⟩

omit A in
theorem TabRowR.mono {t : ℝ} {n l1 ip ido iw : ℕ} {wa wa' : List ℂ} (h : TabRowR t n wa l1 ip ido iw) (hido : 0 < ido) (hl : wa'.length = wa.length)
    (he : ∀ x < iw + (ip - 1) * ido, wa'.getD x 0 = wa.getD x 0) : TabRowR t n wa' l1 ip ido iw := by
  have hb : ∀ j, 1 ≤ j → j < ip → ∀ i < ido, iw + i + (j - 1) * ido < iw + (ip - 1) * ido := by
    intro j h1 h2 i hi
    have : (j - 1 + 1) * ido ≤ (ip - 1) * ido := Nat.mul_le_mul_right _ (by omega)
    rw [add_mul] at this; omega
  refine ⟨by rw [hl]; exact h.len, fun j h1 h2 i hi hc => ?_, fun h6 j h1 h2 => ?_⟩
  · rw [he _ (hb j h1 h2 i hi)]; exact h.tw j h1 h2 i hi hc
  · have := hb j h1 h2 0 hido
    rw [add_zero] at this
    rw [he _ this]; exact h.root h6 j h1 h2

theorem table_loopR (n : ℕ) (h0 : n ≠ 0) (fac : List ℕ) : ∀ (s : IS) (N1 : ℕ), (∀ x ∈ fac, GoodFac x) → n = N1 * s.l1 →
    s.l1 * fac.prod = n → s.wa.length = n → s.i = n - N1 →
    ∃ t, foldRes (twStepR f n) s fac = ok t ∧ t.wa.length = n ∧ (∀ x < s.i, t.wa.getD x 0 = s.wa.getD x 0) ∧
      TabOkR (tabErr u κ) n t.wa s.l1 s.i fac := by
  induction fac with
  | nil =>
    intro s N1 _ hN hp hw hi
    exact ⟨s, rfl, hw, fun _ _ => rfl, show s.l1 = n by simpa using hp⟩
  | cons ip fac ih =>
    intro s N1 hg hN hp hw hi
    have hip : 2 ≤ ip := by
      rcases hg ip (by simp) with h | h
      · exact h.1
      · omega
    have hfp : 0 < fac.prod := Nat.pos_of_ne_zero (by rintro h; apply h0; rw [← hp, List.prod_cons, h]; ring)
    have hl1 : 0 < s.l1 := Nat.pos_of_ne_zero (by rintro h; apply h0; rw [hN, h, mul_zero])
    have hn : n = fac.prod * (s.l1 * ip) := by rw [← hp, List.prod_cons]; ring
    have hN1 : N1 = fac.prod * ip := Nat.eq_of_mul_eq_mul_right hl1 (by rw [← hN, hn]; ring)
    have hNle : N1 ≤ n := by rw [hN]; exact Nat.le_mul_of_pos_right _ hl1
    have hsub : (ip - 1) * fac.prod + fac.prod = N1 := by
      rw [hN1, Nat.sub_mul, mul_comm fac.prod ip, one_mul]
      exact Nat.sub_add_cancel (Nat.le_mul_of_pos_left _ (by omega))
    obtain ⟨w, hr, h1, h2, h3⟩ := twStepR_spec A n ip fac.prod s hn h0 (by omega) (by omega)
    rw [foldRes_cons, hr]
    obtain ⟨t, ht, t1, t2, t3⟩ := ih ⟨s.l1 * ip, s.i + (ip - 1) * fac.prod, w⟩ fac.prod (fun x hx => hg x (by simp [hx])) hn
      (by dsimp only; rw [hn]; ring) (by dsimp only; omega) (by dsimp only; omega)
    refine ⟨t, ht, t1, fun x hx => ?_, hg ip (by simp), ⟨fac.prod, hn, h3.mono hfp (by omega) t2⟩, ?_⟩
    · rw [t2 x (by dsimp only; omega)]; exact h2 x hx
    · have hdv : n / (s.l1 * ip) = fac.prod := by
        rw [hn]; exact Nat.mul_div_cancel _ (Nat.mul_pos hl1 (by omega))
      rw [hdv]; exact t3

end

/-! ## factors -/

theorem factorize_len (n : ℕ) (h2 : 2 ≤ n) (hn : n < 3 ^ 14) :
    ∃ r, factorize n = ok r ∧ (∀ x ∈ r, GoodFac x) ∧ r.prod = n ∧ r.length ≤ 13 := by
  obtain ⟨r, hr, hpf, h3, h4⟩ := factLoop_spec n hn (2 * n + 10) 1 n []
    ⟨le_refl _, h2, by simp, by simp, by omega, by omega, by omega, by omega, Or.inl (by simp), by simp, by simp⟩ (by omega)
  exact ⟨r, hr, h3, h4, PF_length hpf (by rw [h4]; exact hn)⟩

theorem sum_le_prod (l : List ℕ) (h : ∀ x ∈ l, 2 ≤ x) (hl : l ≠ []) : l.sum ≤ l.prod := by
  induction l with
  | nil => exact absurd rfl hl
  | cons x xs ih =>
    rcases xs with _ | ⟨y, ys⟩
    · simp
    have h1 := ih (fun z hz => h z (by simp [hz])) (by simp)
    have hx := h x (by simp)
    rw [List.sum_cons, List.prod_cons]
    have hp : 2 ≤ (y :: ys).prod := by
      have := pow_le_prod 2 (y :: ys) (fun z hz => h z (by simp [hz]))
      have h2 : 2 ^ 1 ≤ 2 ^ (y :: ys).length := Nat.pow_le_pow_right (by norm_num) (by simp)
      omega
    nlinarith

theorem facExp_eq (l : List ℕ) : facExp l = l.sum + 11 * l.length := by
  induction l with
  | nil => rfl
  | cons x xs ih => simp only [facExp, List.map_cons, List.sum_cons, List.length_cons] at ih ⊢; omega

theorem GoodFac.two_le {x : ℕ} (h : GoodFac x) : 2 ≤ x := by
  rcases h with h | h
  · exact h.1
  · omega

/-- A work space that fits length `n`. -/
structure WorkOkR (t : ℝ) (E n : ℕ) (w : Work) : Prop where
  ch : w.ch.length = n
  tab : n ≠ 1 → TabOkR t n w.wa 1 0 w.fac
  exp : facExp w.fac ≤ E

section
variable {f : FA} {u κ : ℝ} (A : FAcc f u κ)
include A

theorem cfftiR_spec (n E : ℕ) (h1 : 1 ≤ n) (hn : n < 3 ^ 14) (hE : ∀ r, factorize n = ok r → facExp r ≤ E) (g : ℂ) :
    ∃ w, cfftiR f n g = ok w ∧ WorkOkR (tabErr u κ) E n w := by
  unfold cfftiR
  by_cases h : n = 1
  · rw [if_neg (by simpa using h)]
    exact ⟨_, rfl, by simp, fun h' => absurd h h', by simp [facExp]⟩
  · rw [if_pos h]
    obtain ⟨fac, hf, hg, hp⟩ := factorize_spec n (by omega) hn
    obtain ⟨t, ht, t1, _, t3⟩ := table_loopR A n (by omega) fac ⟨1, 0, List.replicate n g⟩ n hg (by simp) (by simpa using hp) (by simp) (by simp)
    unfold cffti1R
    rw [hf, ok_bind, ht, ok_bind, ok_bind]
    exact ⟨_, rfl, by simp, fun _ => t3, hE fac hf⟩

/-- The transform: independent of the scratch buffer, and accurate. -/
theorem cfftR_spec (back : Bool) {n E : ℕ} (h1 : 1 ≤ n) (c : List ℂ) (hc : c.length = n) (w : Work) (hw : WorkOkR (tabErr u κ) E n w) :
    ∃ r, r.length = n ∧ (∀ ch : List ℂ, ch.length = n → ∃ ch', cfftR f back n c { w with ch := ch } = ok (r, { w with ch := ch' }) ∧ ch'.length = n) ∧
      ∀ k < n, Near (rho u κ ^ E) (r.getD k 0) (∑ q ∈ range n, c.getD q 0 * zeta n (sg back * (k * q))) (∑ q ∈ range n, ‖c.getD q 0‖) := by
  by_cases h : n = 1
  · refine ⟨c, hc, fun ch hch => ⟨ch, by unfold cfftR; rw [if_neg (by simpa using h)], hch⟩, fun k hk => ?_⟩
    subst h
    obtain rfl : k = 0 := by omega
    simpa using nearP A (Nat.zero_le E) (near0 (c.getD 0 0))
  · obtain ⟨r, hrl, hr, hn⟩ := cfft1R_spec A back (by omega) c w.wa w.fac (hw.tab h) hc
    refine ⟨r, hrl, fun ch hch => ?_, fun k hk => nearP A hw.exp (hn k hk)⟩
    obtain ⟨ch', he, hl⟩ := hr ch hch
    refine ⟨ch', ?_, hl⟩
    unfold cfftR
    rw [if_pos h]
    dsimp only
    rw [he, ok_bind]

end

theorem facExp_le (n : ℕ) (h2 : 2 ≤ n) (hn : n < 3 ^ 14) (r : List ℕ) (hr : factorize n = ok r) : facExp r ≤ n + 143 := by
  obtain ⟨r', hr', hg, hp, hl⟩ := factorize_len n h2 hn
  obtain rfl : r = r' := by rw [hr] at hr'; exact Res.ok.inj hr'
  rw [facExp_eq]
  have := sum_le_prod r (fun x hx => (hg x hx).two_le) (by rintro rfl; simp at hp; omega)
  omega

theorem facExp_smooth (n : ℕ) (h2 : 2 ≤ n) (hn : n < 3 ^ 14) (hs : ∃ j k l, n = 2 ^ j * 3 ^ k * 5 ^ l) (r : List ℕ) (hr : factorize n = ok r) :
    facExp r ≤ 221 := by
  obtain ⟨r', hr', hg, hp, hl⟩ := factorize_len n h2 hn
  obtain rfl : r = r' := by rw [hr] at hr'; exact Res.ok.inj hr'
  obtain ⟨j, k, l, he⟩ := hs
  have h6 : ∀ x ∈ r, x ≤ 6 := by
    intro x hx
    rcases hg x hx with h | ⟨h7, hpr⟩
    · exact h.2
    exfalso
    have hd : x ∣ 2 ^ j * 3 ^ k * 5 ^ l := by rw [← he, ← hp]; exact List.dvd_prod hx
    rcases (Nat.Prime.dvd_mul hpr).mp hd with hd | hd
    · rcases (Nat.Prime.dvd_mul hpr).mp hd with hd | hd
      · have := Nat.le_of_dvd (by norm_num) (hpr.dvd_of_dvd_pow hd); omega
      · have := Nat.le_of_dvd (by norm_num) (hpr.dvd_of_dvd_pow hd); omega
    · have := Nat.le_of_dvd (by norm_num) (hpr.dvd_of_dvd_pow hd); omega
  rw [facExp_eq]
  have := List.sum_le_card_nsmul r 6 h6
  simp only [smul_eq_mul] at this
  omega

end Verif.Fft
