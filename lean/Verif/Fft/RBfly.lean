import Verif.Fft.RModel
import Verif.Fft.General
import Verif.Num.Near

/-! # Rounding errors of the butterflies -/

namespace Verif.Fft
open Verif Res Finset
open Verif.Num (Near)

/-- Accuracy of the arithmetic (`u` relative), of libm and of the stored constants (`κ` absolute). -/
structure FAcc (f : FA) (u κ : ℝ) : Prop where
  u0 : 0 ≤ u
  κ0 : 0 ≤ κ
  rnd : ∀ x, |f.rb x - x| ≤ u * |x|
  cos : ∀ x, |f.cosF x - Real.cos x| ≤ κ
  sin : ∀ x, |f.sinF x - Real.sin x| ≤ κ
  s3 : |f.s3 - √3 / 2| ≤ κ
  c51 : |f.c51 - Real.cos (2 * Real.pi / 5)| ≤ κ
  s51 : |f.s51 - Real.sin (2 * Real.pi / 5)| ≤ κ
  c52 : |f.c52 - Real.cos (4 * Real.pi / 5)| ≤ κ
  s52 : |f.s52 - Real.sin (4 * Real.pi / 5)| ≤ κ
  twopi : |f.twopi - 2 * Real.pi| ≤ u * (2 * Real.pi)
  pi : |f.pi - Real.pi| ≤ u * Real.pi

/-- Accuracy of the table of roots of unity. -/
noncomputable def tabErr (u κ : ℝ) : ℝ := 2 * (κ + 7 * ((1 + u) ^ 4 - 1))

/-- Growth per operation. -/
noncomputable def rho (u κ : ℝ) : ℝ := (1 + tabErr u κ) * (1 + u)

theorem one_le_pow4 {u : ℝ} (u0 : 0 ≤ u) (m : ℕ) : 1 ≤ (1 + u) ^ m := one_le_pow₀ (by linarith)

theorem FAcc.tab0 {f : FA} {u κ : ℝ} (h : FAcc f u κ) : 0 ≤ tabErr u κ := by
  have := one_le_pow4 h.u0 4
  have := h.κ0
  unfold tabErr; linarith

theorem FAcc.tabκ {f : FA} {u κ : ℝ} (h : FAcc f u κ) : κ ≤ tabErr u κ := by
  have := one_le_pow4 h.u0 4
  have := h.κ0
  unfold tabErr; linarith

theorem FAcc.rho1 {f : FA} {u κ : ℝ} (h : FAcc f u κ) : 1 ≤ rho u κ := by
  have := h.tab0
  have := h.u0
  unfold rho
  exact one_le_mul_of_one_le_of_one_le (by linarith) (by linarith)

theorem FAcc.u_le {f : FA} {u κ : ℝ} (h : FAcc f u κ) : 1 + u ≤ rho u κ := by
  have := h.tab0
  have := h.u0
  unfold rho
  exact le_mul_of_one_le_left (by linarith) (by linarith)

section steps
variable {f : FA} {u κ : ℝ} (A : FAcc f u κ)
include A

theorem rc_norm (z : ℂ) : ‖f.rc z - z‖ ≤ u * ‖z‖ :=
  Num.norm_le_of_parts A.u0 (by simpa [FA.rc] using A.rnd z.re) (by simpa [FA.rc] using A.rnd z.im)

theorem nearP {k m : ℕ} (h : k ≤ m) {x y : ℂ} {Q : ℝ} (hx : Near (rho u κ ^ k) x y Q) : Near (rho u κ ^ m) x y Q :=
  hx.mono (pow_le_pow_right₀ A.rho1 h) le_rfl

theorem round_step {k m : ℕ} (h : k + 1 ≤ m) {x y : ℂ} {Q : ℝ} (hx : Near (rho u κ ^ k) x y Q) : Near (rho u κ ^ m) (f.rc x) y Q := by
  have := hx.round A.u0 (rc_norm A x)
  refine nearP A h (this.mono ?_ le_rfl)
  rw [pow_succ]
  exact mul_le_mul_of_nonneg_left A.u_le (zero_le_one.trans hx.one_le)

theorem add_step {k k' m : ℕ} (h : k + 1 ≤ m) (h' : k' + 1 ≤ m) {x y x' y' : ℂ} {Q Q' : ℝ} (hx : Near (rho u κ ^ k) x y Q)
    (hx' : Near (rho u κ ^ k') x' y' Q') : Near (rho u κ ^ m) (f.add x x') (y + y') (Q + Q') :=
  round_step A (k := m - 1) (by omega) ((nearP A (by omega) hx).add (nearP A (by omega) hx'))

theorem sub_step {k k' m : ℕ} (h : k + 1 ≤ m) (h' : k' + 1 ≤ m) {x y x' y' : ℂ} {Q Q' : ℝ} (hx : Near (rho u κ ^ k) x y Q)
    (hx' : Near (rho u κ ^ k') x' y' Q') : Near (rho u κ ^ m) (f.sub x x') (y - y') (Q + Q') :=
  round_step A (k := m - 1) (by omega) ((nearP A (by omega) hx).sub (nearP A (by omega) hx'))

theorem scl_step {k m : ℕ} (h : k + 1 ≤ m) {c X : ℝ} (hc : |c - X| ≤ tabErr u κ) (hX : |X| ≤ 1) {x y : ℂ} {Q : ℝ}
    (hx : Near (rho u κ ^ k) x y Q) : Near (rho u κ ^ m) (f.scl c x) ((X : ℂ) * y) Q := by
  have h1 : Near (1 + tabErr u κ) (c : ℂ) (X : ℂ) 1 := by
    refine ⟨by linarith [A.tab0], ?_, by simpa using hX⟩
    rw [← Complex.ofReal_sub, Complex.norm_real, Real.norm_eq_abs]; linarith
  have h2 := (h1.mul hx).round A.u0 (rc_norm A _)
  rw [one_mul] at h2
  refine nearP A h (h2.mono (le_of_eq ?_) le_rfl)
  rw [pow_succ]; unfold rho; ring

omit A in
theorem flip_step {k : ℝ} {x y : ℂ} {Q : ℝ} (hx : Near k x y Q) : Near k (conjflip x) (conjflip y) Q := by
  rw [conjflip_eq, conjflip_eq]
  have := (Near.refl (y := Complex.I) (Q := 1) (by simp)).mul hx
  simpa using this

/-- Multiplication by an entry of the table. -/
theorem mul_step (back : Bool) {k m : ℕ} (h : k + 3 ≤ m) {w W : ℂ} (hw : ‖w - W‖ ≤ tabErr u κ) (hW : ‖W‖ ≤ 1) {x y : ℂ} {Q : ℝ}
    (hx : Near (rho u κ ^ k) x y Q) : Near (rho u κ ^ m) (f.mul back w x) (mulpm back W y) Q := by
  have key : ∀ w W v : ℂ, ‖w - W‖ ≤ tabErr u κ → ‖W‖ ≤ 1 → ‖v - w * x‖ ≤ 2 * u * (‖w‖ * ‖x‖) →
      Near (rho u κ ^ m) (f.rc v) (W * y) Q := by
    intro w W v hw hW hv
    have h1 : Near (1 + tabErr u κ) w W 1 := ⟨by linarith [A.tab0], by linarith, hW⟩
    have h2 := (h1.mul hx).round (u := 2 * u) (by linarith [A.u0]) (r := v) (by rw [norm_mul]; exact hv)
    rw [one_mul] at h2
    have h3 : Near (rho u κ ^ (k + 2)) v (W * y) Q := by
      refine h2.mono ?_ le_rfl
      have e : (1 + tabErr u κ) * rho u κ ^ k * (1 + 2 * u) ≤ rho u κ ^ k * ((1 + tabErr u κ) * (1 + tabErr u κ) * ((1 + u) * (1 + u))) := by
        have p : 0 ≤ rho u κ ^ k := zero_le_one.trans (one_le_pow₀ A.rho1)
        have t := A.tab0
        have q := A.u0
        rw [show (1 + tabErr u κ) * rho u κ ^ k * (1 + 2 * u) = rho u κ ^ k * ((1 + tabErr u κ) * (1 + 2 * u)) by ring]
        refine mul_le_mul_of_nonneg_left (mul_le_mul (le_mul_of_one_le_left (by linarith) (by linarith)) (by nlinarith) (by linarith) (by positivity)) p
      refine e.trans (le_of_eq ?_)
      unfold rho; ring
    exact round_step A (by omega) h3
  have n1 := Num.cs_le w x
  have n2 := Num.cs_le' w x
  have q1 := A.rnd (w.re * x.re)
  have q2 := A.rnd (w.im * x.im)
  have q3 := A.rnd (w.re * x.im)
  have q4 := A.rnd (w.im * x.re)
  have u0 := A.u0
  have m1 := mul_le_mul_of_nonneg_left n1 u0
  have m2 := mul_le_mul_of_nonneg_left n2 u0
  rw [mul_add] at m1 m2
  have tri : ∀ p p' q q' : ℝ, |(p + q) - (p' + q')| ≤ |p - p'| + |q - q'| := fun p p' q q' => by
    rw [show (p + q) - (p' + q') = (p - p') + (q - q') by ring]; exact abs_add_le _ _
  have tri' : ∀ p p' q q' : ℝ, |(p - q) - (p' - q')| ≤ |p - p'| + |q - q'| := fun p p' q q' => by
    rw [show (p - q) - (p' - q') = (p - p') - (q - q') by ring]; exact abs_sub _ _
  cases back with
  | true =>
    have e : mulpm true W y = W * y := by apply Complex.ext <;> simp [mulpm]
    rw [e]
    have : f.mul true w x = f.rc ⟨f.rb (w.re * x.re) - f.rb (w.im * x.im), f.rb (w.re * x.im) + f.rb (w.im * x.re)⟩ := rfl
    rw [this]
    refine key w W _ hw hW ((Complex.norm_le_abs_re_add_abs_im _).trans ?_)
    simp only [Complex.sub_re, Complex.sub_im, Complex.mul_re, Complex.mul_im]
    have t1 := tri' (f.rb (w.re * x.re)) (w.re * x.re) (f.rb (w.im * x.im)) (w.im * x.im)
    have t2 := tri (f.rb (w.re * x.im)) (w.re * x.im) (f.rb (w.im * x.re)) (w.im * x.re)
    linarith
  | false =>
    have e : mulpm false W y = (starRingEnd ℂ) W * y := by apply Complex.ext <;> simp [mulpm] <;> ring
    rw [e]
    have : f.mul false w x = f.rc ⟨f.rb (w.re * x.re) + f.rb (w.im * x.im), f.rb (w.re * x.im) - f.rb (w.im * x.re)⟩ := rfl
    rw [this]
    refine key ((starRingEnd ℂ) w) _ _ (by rw [← map_sub, RCLike.norm_conj]; exact hw) (by rw [RCLike.norm_conj]; exact hW)
      ((Complex.norm_le_abs_re_add_abs_im _).trans ?_)
    rw [RCLike.norm_conj]
    simp only [Complex.sub_re, Complex.sub_im, Complex.mul_re, Complex.mul_im, Complex.conj_re, Complex.conj_im, neg_mul, sub_neg_eq_add, ← sub_eq_add_neg]
    have t1 := tri (f.rb (w.re * x.re)) (w.re * x.re) (f.rb (w.im * x.im)) (w.im * x.im)
    have t2 := tri' (f.rb (w.re * x.im)) (w.re * x.im) (f.rb (w.im * x.re)) (w.im * x.re)
    linarith

omit A in
theorem near0 (z : ℂ) : Near (rho u κ ^ 0) z z ‖z‖ := by rw [pow_zero]; exact Near.refl le_rfl

end steps

/-! ## special radices -/

theorem abs_psign (back : Bool) (x y : ℝ) : |psign back x - psign back y| = |x - y| := by
  cases back
  · simp only [psign, Bool.false_eq_true, if_false]
    rw [show -x - -y = -(x - y) by ring, abs_neg]
  · rfl

theorem abs_psign' (back : Bool) (x : ℝ) : |psign back x| = |x| := by
  cases back
  · simp [psign]
  · rfl

theorem sqrt3_le : |√3 / 2| ≤ 1 := by
  rw [abs_of_nonneg (by positivity)]
  have : √3 ≤ 2 := by
    rw [Real.sqrt_le_left (by norm_num)]; norm_num
  linarith

section bfly
variable {f : FA} {u κ : ℝ} (A : FAcc f u κ)
include A

theorem FAcc.of_half {c X : ℝ} (h : c = X) : |c - X| ≤ tabErr u κ := by rw [h, sub_self, abs_zero]; exact A.tab0

theorem FAcc.ps {c X : ℝ} (back : Bool) (h : |c - X| ≤ κ) : |psign back c - psign back X| ≤ tabErr u κ := by
  rw [abs_psign]; exact h.trans A.tabκ

theorem bf2R_near (a b : ℂ) (j : ℕ) (hj : j < 2) :
    Near (rho u κ ^ 1) ((bf2R f a b).getD j 0) ((bf2 a b).getD j 0) (2 * (‖a‖ + ‖b‖)) := by
  have p := add_step A (k := 0) (k' := 0) (m := 1) le_rfl le_rfl (near0 a) (near0 b)
  have q := sub_step A (k := 0) (k' := 0) (m := 1) le_rfl le_rfl (near0 a) (near0 b)
  have : ‖a‖ + ‖b‖ ≤ 2 * (‖a‖ + ‖b‖) := by linarith [norm_nonneg a, norm_nonneg b]
  match j, hj with
  | 0, _ => exact p.mono le_rfl this
  | 1, _ => exact q.mono le_rfl this

theorem bf3R_near (back : Bool) (a b c : ℂ) (j : ℕ) (hj : j < 3) :
    Near (rho u κ ^ 4) ((bf3R f back a b c).getD j 0) ((bf3 back a b c).getD j 0) (2 * (‖a‖ + ‖b‖ + ‖c‖)) := by
  have ha := norm_nonneg a
  have hb := norm_nonneg b
  have hc := norm_nonneg c
  have t2 := add_step A (k := 0) (k' := 0) (m := 1) le_rfl le_rfl (near0 b) (near0 c)
  have c3 := sub_step A (k := 0) (k' := 0) (m := 1) le_rfl le_rfl (near0 b) (near0 c)
  have u0 := add_step A (k := 1) (k' := 0) (m := 2) le_rfl (by norm_num) t2 (near0 a)
  have s2 := scl_step A (k := 1) (m := 2) le_rfl (c := -1 / 2) (X := -1 / 2) (A.of_half rfl) (by norm_num) t2
  have c2 := add_step A (k := 0) (k' := 2) (m := 3) (by norm_num) le_rfl (near0 a) s2
  have s3 := flip_step (scl_step A (k := 1) (m := 2) le_rfl (A.ps back A.s3) (by rw [abs_psign']; exact sqrt3_le) c3)
  have o1 := add_step A (k := 3) (k' := 2) (m := 4) le_rfl (by norm_num) c2 s3
  have o2 := sub_step A (k := 3) (k' := 2) (m := 4) le_rfl (by norm_num) c2 s3
  match j, hj with
  | 0, _ => exact (nearP A (by norm_num) u0).mono le_rfl (by linarith)
  | 1, _ => exact o1.mono le_rfl (by linarith)
  | 2, _ => exact o2.mono le_rfl (by linarith)

theorem bf4R_near (back : Bool) (a b c d : ℂ) (j : ℕ) (hj : j < 4) :
    Near (rho u κ ^ 2) ((bf4R f back a b c d).getD j 0) ((bf4 back a b c d).getD j 0) (2 * (‖a‖ + ‖b‖ + ‖c‖ + ‖d‖)) := by
  have ha := norm_nonneg a
  have hb := norm_nonneg b
  have hc := norm_nonneg c
  have hd := norm_nonneg d
  have t2 := add_step A (k := 0) (k' := 0) (m := 1) le_rfl le_rfl (near0 a) (near0 c)
  have t1 := sub_step A (k := 0) (k' := 0) (m := 1) le_rfl le_rfl (near0 a) (near0 c)
  have t3 := add_step A (k := 0) (k' := 0) (m := 1) le_rfl le_rfl (near0 b) (near0 d)
  have t4 := flip_step (sub_step A (k := 0) (k' := 0) (m := 1) le_rfl le_rfl (near0 b) (near0 d))
  have o0 := add_step A (k := 1) (k' := 1) (m := 2) le_rfl le_rfl t2 t3
  have o2 := sub_step A (k := 1) (k' := 1) (m := 2) le_rfl le_rfl t2 t3
  have p := add_step A (k := 1) (k' := 1) (m := 2) le_rfl le_rfl t1 t4
  have q := sub_step A (k := 1) (k' := 1) (m := 2) le_rfl le_rfl t1 t4
  match j, hj with
  | 0, _ => exact o0.mono le_rfl (by linarith)
  | 1, _ => cases back
            · exact q.mono le_rfl (by linarith)
            · exact p.mono le_rfl (by linarith)
  | 2, _ => exact o2.mono le_rfl (by linarith)
  | 3, _ => cases back
            · exact p.mono le_rfl (by linarith)
            · exact q.mono le_rfl (by linarith)

theorem bf5R_near (back : Bool) (a b c d e : ℂ) (j : ℕ) (hj : j < 5) :
    Near (rho u κ ^ 5) ((bf5R f back a b c d e).getD j 0) ((bf5 back a b c d e).getD j 0) (2 * (‖a‖ + ‖b‖ + ‖c‖ + ‖d‖ + ‖e‖)) := by
  have ha := norm_nonneg a
  have hb := norm_nonneg b
  have hc := norm_nonneg c
  have hd := norm_nonneg d
  have he := norm_nonneg e
  have k1 := A.c51.trans A.tabκ
  have k2 := A.c52.trans A.tabκ
  have l1 := A.ps back A.s51
  have l2 := A.ps back A.s52
  have m1 := Real.abs_cos_le_one (2 * Real.pi / 5)
  have m2 := Real.abs_cos_le_one (4 * Real.pi / 5)
  have n1 : |psign back (Real.sin (2 * Real.pi / 5))| ≤ 1 := by rw [abs_psign']; exact Real.abs_sin_le_one _
  have n2 : |psign back (Real.sin (4 * Real.pi / 5))| ≤ 1 := by rw [abs_psign']; exact Real.abs_sin_le_one _
  have t2 := add_step A (k := 0) (k' := 0) (m := 1) le_rfl le_rfl (near0 b) (near0 e)
  have t5 := sub_step A (k := 0) (k' := 0) (m := 1) le_rfl le_rfl (near0 b) (near0 e)
  have t3 := add_step A (k := 0) (k' := 0) (m := 1) le_rfl le_rfl (near0 c) (near0 d)
  have t4 := sub_step A (k := 0) (k' := 0) (m := 1) le_rfl le_rfl (near0 c) (near0 d)
  have u0 := add_step A (k := 2) (k' := 1) (m := 3) le_rfl (by norm_num) (add_step A (k := 0) (k' := 1) (m := 2) (by norm_num) le_rfl (near0 a) t2) t3
  have sc : ∀ {x X : ℝ} {z y : ℂ} {Q : ℝ}, |x - X| ≤ tabErr u κ → |X| ≤ 1 → Near (rho u κ ^ 1) z y Q → Near (rho u κ ^ 2) (f.scl x z) ((X : ℂ) * y) Q :=
    fun h1 h2 h3 => scl_step A (k := 1) (m := 2) le_rfl h1 h2 h3
  have c2 := add_step A (k := 3) (k' := 2) (m := 4) le_rfl (by norm_num)
    (add_step A (k := 0) (k' := 2) (m := 3) (by norm_num) le_rfl (near0 a) (sc k1 m1 t2)) (sc k2 m2 t3)
  have c3 := add_step A (k := 3) (k' := 2) (m := 4) le_rfl (by norm_num)
    (add_step A (k := 0) (k' := 2) (m := 3) (by norm_num) le_rfl (near0 a) (sc k2 m2 t2)) (sc k1 m1 t3)
  have c5 := flip_step (add_step A (k := 2) (k' := 2) (m := 3) le_rfl le_rfl (sc l1 n1 t5) (sc l2 n2 t4))
  have c4 := flip_step (sub_step A (k := 2) (k' := 2) (m := 3) le_rfl le_rfl (sc l2 n2 t5) (sc l1 n1 t4))
  match j, hj with
  | 0, _ => exact (nearP A (by norm_num) u0).mono le_rfl (by linarith)
  | 1, _ => exact (add_step A (k := 4) (k' := 3) (m := 5) le_rfl (by norm_num) c2 c5).mono le_rfl (by linarith)
  | 2, _ => exact (add_step A (k := 4) (k' := 3) (m := 5) le_rfl (by norm_num) c3 c4).mono le_rfl (by linarith)
  | 3, _ => exact (sub_step A (k := 4) (k' := 3) (m := 5) le_rfl (by norm_num) c3 c4).mono le_rfl (by linarith)
  | 4, _ => exact (sub_step A (k := 4) (k' := 3) (m := 5) le_rfl (by norm_num) c2 c5).mono le_rfl (by linarith)

theorem bf6R_near (back : Bool) (a b c d e g : ℂ) (j : ℕ) (hj : j < 6) :
    Near (rho u κ ^ 5) ((bf6R f back a b c d e g).getD j 0) ((bf6 back a b c d e g).getD j 0) (2 * (‖a‖ + ‖b‖ + ‖c‖ + ‖d‖ + ‖e‖ + ‖g‖)) := by
  have ha := norm_nonneg a
  have hb := norm_nonneg b
  have hc := norm_nonneg c
  have hd := norm_nonneg d
  have he := norm_nonneg e
  have hg := norm_nonneg g
  have half : ∀ {z y : ℂ} {Q : ℝ}, Near (rho u κ ^ 1) z y Q → Near (rho u κ ^ 2) (f.scl (1 / 2) z) ((1 / 2 : ℂ) * y) Q := by
    intro z y Q h
    have := scl_step A (k := 1) (m := 2) le_rfl (c := 1 / 2) (X := 1 / 2) (A.of_half rfl) (by norm_num) h
    rwa [show (((1 / 2 : ℝ)) : ℂ) = 1 / 2 by push_cast; rfl] at this
  have sc : ∀ {z y : ℂ} {Q : ℝ}, Near (rho u κ ^ 1) z y Q → Near (rho u κ ^ 2) (conjflip (f.scl (psign back f.s3) z)) (conjflip ((psign back (√3 / 2) : ℝ) * y)) Q :=
    fun h => flip_step (scl_step A (k := 1) (m := 2) le_rfl (A.ps back A.s3) (by rw [abs_psign']; exact sqrt3_le) h)
  have ta1 := add_step A (k := 0) (k' := 0) (m := 1) le_rfl le_rfl (near0 c) (near0 e)
  have ta3 := sub_step A (k := 0) (k' := 0) (m := 1) le_rfl le_rfl (near0 c) (near0 e)
  have ta2 := sub_step A (k := 0) (k' := 2) (m := 3) (by norm_num) le_rfl (near0 a) (half ta1)
  have a0 := add_step A (k := 0) (k' := 1) (m := 2) (by norm_num) le_rfl (near0 a) ta1
  have a1 := add_step A (k := 3) (k' := 2) (m := 4) le_rfl (by norm_num) ta2 (sc ta3)
  have a2 := sub_step A (k := 3) (k' := 2) (m := 4) le_rfl (by norm_num) ta2 (sc ta3)
  have tb1 := add_step A (k := 0) (k' := 0) (m := 1) le_rfl le_rfl (near0 g) (near0 b)
  have tb3 := sub_step A (k := 0) (k' := 0) (m := 1) le_rfl le_rfl (near0 g) (near0 b)
  have tb2 := sub_step A (k := 0) (k' := 2) (m := 3) (by norm_num) le_rfl (near0 d) (half tb1)
  have b0 := add_step A (k := 0) (k' := 1) (m := 2) (by norm_num) le_rfl (near0 d) tb1
  have b1 := add_step A (k := 3) (k' := 2) (m := 4) le_rfl (by norm_num) tb2 (sc tb3)
  have b2 := sub_step A (k := 3) (k' := 2) (m := 4) le_rfl (by norm_num) tb2 (sc tb3)
  match j, hj with
  | 0, _ => exact (add_step A (k := 2) (k' := 2) (m := 5) (by norm_num) (by norm_num) a0 b0).mono le_rfl (by linarith)
  | 1, _ => exact (sub_step A (k := 4) (k' := 4) (m := 5) le_rfl le_rfl a1 b1).mono le_rfl (by linarith)
  | 2, _ => exact (add_step A (k := 4) (k' := 4) (m := 5) le_rfl le_rfl a2 b2).mono le_rfl (by linarith)
  | 3, _ => exact (sub_step A (k := 2) (k' := 2) (m := 5) (by norm_num) (by norm_num) a0 b0).mono le_rfl (by linarith)
  | 4, _ => exact (add_step A (k := 4) (k' := 4) (m := 5) le_rfl le_rfl a1 b1).mono le_rfl (by linarith)
  | 5, _ => exact (sub_step A (k := 4) (k' := 4) (m := 5) le_rfl le_rfl a2 b2).mono le_rfl (by linarith)

theorem bfR_spec (back : Bool) (v : List ℂ) (h1 : 2 ≤ v.length) (h2 : v.length ≤ 6) :
    ∃ r, bfR f back v = ok r ∧ r.length = v.length ∧ ∀ j < v.length,
      Near (rho u κ ^ 5) (r.getD j 0) (dftAt back v.length v j) (2 * ∑ m ∈ range v.length, ‖v.getD m 0‖) := by
  match v, h1, h2 with
  | [a, b], _, _ =>
    refine ⟨_, rfl, rfl, fun j hj => ?_⟩
    show Near _ _ (dftAt back 2 [a, b] j) _
    rw [← bf2_spec back a b j hj]
    simpa [sum_range_succ] using nearP A (m := 5) (by norm_num) (bf2R_near A a b j hj)
  | [a, b, c], _, _ =>
    refine ⟨_, rfl, rfl, fun j hj => ?_⟩
    show Near _ _ (dftAt back 3 [a, b, c] j) _
    rw [← bf3_spec back a b c j hj]
    simpa [sum_range_succ] using nearP A (m := 5) (by norm_num) (bf3R_near A back a b c j hj)
  | [a, b, c, d], _, _ =>
    refine ⟨_, rfl, rfl, fun j hj => ?_⟩
    show Near _ _ (dftAt back 4 [a, b, c, d] j) _
    rw [← bf4_spec back a b c d j hj]
    simpa [sum_range_succ] using nearP A (m := 5) (by norm_num) (bf4R_near A back a b c d j hj)
  | [a, b, c, d, e], _, _ =>
    refine ⟨_, rfl, rfl, fun j hj => ?_⟩
    show Near _ _ (dftAt back 5 [a, b, c, d, e] j) _
    rw [← bf5_spec back a b c d e j hj]
    simpa [sum_range_succ] using bf5R_near A back a b c d e j hj
  | [a, b, c, d, e, g], _, _ =>
    refine ⟨_, rfl, rfl, fun j hj => ?_⟩
    show Near _ _ (dftAt back 6 [a, b, c, d, e, g] j) _
    rw [← bf6_spec back a b c d e g j hj]
    simpa [sum_range_succ] using bf6R_near A back a b c d e g j hj
  | _ :: _ :: _ :: _ :: _ :: _ :: _ :: _, _, h => simp at h; omega

end bfly

end Verif.Fft
