import Verif.Num.RAnnulus
import Verif.Num.Total

/-!
# Accuracy of the rings in floating point (C64)
-/

namespace Verif.Num
open Verif Res Finset

/-! ## Specification -/

/-- Accuracy of the arithmetic (`us` single, `u` double precision), of the elements returned by the generator (`δ`), of the tables (`κ`) and
of the transform (`φ`).  The degrees left out are those left out in exact arithmetic. -/
structure Accurate (f : FKern) (ovf : Res ℤ) (c : Tod.Cfg) (eps us u δ κ φ : ℝ) : Prop where
  us0 : 0 ≤ us
  u0 : 0 ≤ u
  δ0 : 0 ≤ δ
  κ0 : 0 ≤ κ
  φ0 : 0 ≤ φ
  single : ∀ x, |f.rs x - x| ≤ us * |x|
  double : ∀ x, |f.rb x - x| ≤ u * |x|
  first : ∀ mb m it : ℕ, mb < c.npsi → m ≤ c.lmax →
    max (f.gen mb m it).1 (f.gen mb (-m) it).1 = kfirst ovf c.lmax [Tod.ringTheta c it] eps mb m 0
  len : ∀ (mb : ℕ) (m : ℤ) (it : ℕ), mb < c.npsi → |m| ≤ c.lmax → (f.gen mb m it).2.length = c.lmax + 1
  elem : ∀ (mb : ℕ) (m : ℤ) (it l : ℕ), mb < c.npsi → |m| ≤ c.lmax → kfirst ovf c.lmax [Tod.ringTheta c it] eps mb m.natAbs 0 ≤ l →
    l ≤ c.lmax → |(f.gen mb m it).2.getD l 0 - wignerD l mb m (genAngle (Tod.ringTheta c it))| ≤ δ
  shape : SynthShape f c.lmax
  cs : ∀ i < c.nphi, |f.cs.getD i 0 - Real.cos (-(Real.pi / 2) * ((i : ℝ) - c.lmax))| ≤ κ
  sn : ∀ i < c.nphi, |f.sn.getD i 0 - Real.sin (-(Real.pi / 2) * ((i : ℝ) - c.lmax))| ≤ κ
  cs0 : ∀ i < c.nphi, |f.cs0.getD i 0 - Real.cos (i * (2 * Real.pi * c.lmax / (2 * c.lmax + 1)))| ≤ κ
  sn0 : ∀ i < c.nphi, |f.sn0.getD i 0 - Real.sin (i * (2 * Real.pi * c.lmax / (2 * c.lmax + 1)))| ≤ κ
  fft : ∀ xs : List ℂ, xs.length = c.nphi → ∀ k < c.nphi,
    ‖(f.fft xs).getD k 0 - ∑ j ∈ range c.nphi, xs.getD j 0 * Complex.exp (2 * Real.pi * Complex.I * j * k / c.nphi)‖ ≤
      φ * ∑ j ∈ range c.nphi, ‖xs.getD j 0‖

/-- `Σ_X |s^X_{lm}| |b^X_{lm'}|` over the components in use. -/
noncomputable def absPair (pol : Bool) (s b : Exps) (l m mb : ℕ) : ℝ :=
  ‖coef s.T l m‖ * ‖coef b.T l mb‖ + if pol then ‖coef s.G l m‖ * ‖coef b.G l mb‖ + ‖coef s.C l m‖ * ‖coef b.C l mb‖ else 0

/-- Sum of the magnitudes of the products of coefficients, beam orders `0 … mbeam`. -/
noncomputable def absMagnitude (pol : Bool) (s b : Exps) (lmax mbeam : ℕ) : ℝ :=
  ∑ k ∈ range (mbeam + 1), ∑ m ∈ Icc (-(lmax : ℤ)) lmax, ∑ l ∈ Icc (max m.natAbs k) lmax, absPair pol s b l m.natAbs k

/-- Growth of the relative error: products, elements, accumulation, three rotations, transform. -/
noncomputable def growth (pol : Bool) (lmax : ℕ) (us u δ κ φ : ℝ) : ℝ :=
  (2 * ((1 + us) ^ (if pol then 3 else 1) * (1 + u) ^ 2) - 1) * ((1 + δ) * (1 + u) ^ 2) * (1 + u) * (1 + u) ^ (lmax + 1) *
    ((1 + 2 * κ) * (1 + 2 * u) * (1 + u)) ^ 3 * (1 + φ)

/-! ## products -/

theorem near_rs {r : ℝ → ℝ} {u : ℝ} (h0 : 0 ≤ u) (h : ∀ x, |r x - x| ≤ u * |x|) {κ x y Q : ℝ} (hx : Near κ x y Q) :
    Near (κ * (1 + u)) (r x) y Q := hx.round h0 (by simpa using h x)

theorem near_abs (x : ℝ) : Near 1 x x |x| := Near.refl le_rfl

theorem near_one {r : ℝ → ℝ} {u : ℝ} (h0 : 0 ≤ u) (h : ∀ x, |r x - x| ≤ u * |x|) (x : ℝ) : Near (1 + u) (r x) x |x| := by
  simpa using near_rs h0 h (near_abs x)

theorem sum3R_near {f : FKern} {us : ℝ} (h0 : 0 ≤ us) (h : ∀ x, |f.rs x - x| ≤ us * |x|) (x y z : ℝ) :
    Near ((1 + us) ^ 3) (sum3R f x y z) (x + y + z) (|x| + |y| + |z|) := by
  unfold sum3R
  have h1 := near_rs h0 h ((near_one h0 h x).add (near_one h0 h y))
  have h2 := (near_one h0 h z).mono (κ' := (1 + us) * (1 + us)) (Q' := |z|) (by nlinarith) le_rfl
  have := near_rs h0 h (h1.add h2)
  rwa [show (1 + us) * (1 + us) * (1 + us) = (1 + us) ^ 3 by ring] at this

/-- The four products with their exact values and magnitudes. -/
theorem prodsV_near {f : FKern} {us : ℝ} (h0 : 0 ≤ us) (h : ∀ x, |f.rs x - x| ≤ us * |x|) (pol : Bool) (s b : Exps) (l m mb : ℕ) :
    ∃ e1 e2 e3 e4 q1 q2 q3 q4 : ℝ, Near ((1 + us) ^ (if pol then 3 else 1)) (prodsV f pol s b l m mb).1 e1 q1 ∧
      Near ((1 + us) ^ (if pol then 3 else 1)) (prodsV f pol s b l m mb).2.1 e2 q2 ∧
      Near ((1 + us) ^ (if pol then 3 else 1)) (prodsV f pol s b l m mb).2.2.1 e3 q3 ∧
      Near ((1 + us) ^ (if pol then 3 else 1)) (prodsV f pol s b l m mb).2.2.2 e4 q4 ∧
      q1 + q2 ≤ absPair pol s b l m mb ∧ q3 + q4 ≤ absPair pol s b l m mb ∧
      (⟨e1 + e2, e3 - e4⟩ : ℂ) = skyBeam pol s b l m mb ∧
      (m ≠ 0 → (⟨(-1) ^ m * (e1 - e2), -(-1) ^ m * (e3 + e4)⟩ : ℂ) = skyBeam pol s b l (-m) mb) := by
  have hsgn : ∀ (m : ℕ), (((-1 : ℝ) ^ m : ℝ) : ℂ) = (-1 : ℂ) ^ m := by intro m; push_cast; rfl
  have hre : ∀ m : ℕ, ((-1 : ℂ) ^ m).re = (-1) ^ m ∧ ((-1 : ℂ) ^ m).im = 0 := by
    intro m; rw [← hsgn]; exact ⟨Complex.ofReal_re _, Complex.ofReal_im _⟩
  have t1 := cs_le (coef s.T l m) (coef b.T l mb)
  have t2 := cs_le' (coef s.T l m) (coef b.T l mb)
  have g1 := cs_le (coef s.G l m) (coef b.G l mb)
  have g2 := cs_le' (coef s.G l m) (coef b.G l mb)
  have c1 := cs_le (coef s.C l m) (coef b.C l mb)
  have c2 := cs_le' (coef s.C l m) (coef b.C l mb)
  unfold prodsV absPair skyBeam
  dsimp only
  cases pol with
  | false =>
    simp only [Bool.false_eq_true, if_false, pow_one]
    refine ⟨_, _, _, _, _, _, _, _, near_one h0 h _, near_one h0 h _, near_one h0 h _, near_one h0 h _, by linarith, by linarith, ?_,
      fun hm0 => ?_⟩
    · rw [coefZ_nat, coefZ_nat]
      apply Complex.ext <;> simp <;> ring
    · rw [coefZ_neg _ _ hm0, coefZ_nat]
      apply Complex.ext <;> simp [(hre m).1, (hre m).2] <;> ring
  | true =>
    simp only [if_true]
    refine ⟨_, _, _, _, _, _, _, _, sum3R_near h0 h _ _ _, sum3R_near h0 h _ _ _, sum3R_near h0 h _ _ _, sum3R_near h0 h _ _ _,
      by linarith, by linarith, ?_, fun hm0 => ?_⟩
    · simp only [coefZ_nat]
      apply Complex.ext <;> simp <;> ring
    · simp only [coefZ_neg _ _ hm0, coefZ_nat]
      apply Complex.ext <;> simp [(hre m).1, (hre m).2] <;> ring

theorem skyBeam_norm (pol : Bool) (s b : Exps) (l : ℕ) (M : ℤ) (mb : ℕ) : ‖skyBeam pol s b l M mb‖ ≤ absPair pol s b l M.natAbs mb := by
  have hc : ∀ (a : Harm.Alm ℂ) (k : ℤ), ‖coefZ a l k‖ = ‖coef a l k.natAbs‖ := by
    intro a k
    unfold coefZ
    split
    · rfl
    · rw [norm_mul, norm_pow, norm_neg, norm_one, one_pow, one_mul, RCLike.norm_conj]
  have hp : ∀ (a a' : Harm.Alm ℂ), ‖coefZ a l M * (starRingEnd ℂ) (coefZ a' l mb)‖ = ‖coef a l M.natAbs‖ * ‖coef a' l mb‖ := by
    intro a a'
    rw [norm_mul, RCLike.norm_conj, hc, hc, Int.natAbs_natCast]
  unfold skyBeam absPair
  refine (norm_add_le _ _).trans ?_
  rw [hp]
  refine add_le_add le_rfl ?_
  split
  · refine (norm_add_le _ _).trans ?_
    rw [hp, hp]
  · simp

theorem one_le_pow' {x : ℝ} (h : 0 ≤ x) (n : ℕ) : 1 ≤ (1 + x) ^ n := one_le_pow₀ (by linarith)

theorem near_sign {r : ℝ → ℝ} {u : ℝ} (h0 : 0 ≤ u) (h : ∀ x, |r x - x| ≤ u * |x|) {κ x y Q σ : ℝ} (hσ : |σ| = 1) (hx : Near κ x y Q) :
    Near (κ * (1 + u)) (r (σ * x)) (σ * y) Q := by
  have h1 : Near 1 σ σ 1 := Near.refl (by rw [Real.norm_eq_abs, hσ])
  have := near_rs h0 h (h1.mul hx)
  simpa using this

theorem xpow_abs (n : ℕ) : |xpow n 1| = 1 := by
  rw [xpow_nat, mul_one, abs_pow, abs_neg, abs_one, one_pow]

theorem tmpV_near {f : FKern} {us u : ℝ} (h0 : 0 ≤ us) (h : ∀ x, |f.rs x - x| ≤ us * |x|) (u0 : 0 ≤ u) (hu : ∀ x, |f.rb x - x| ≤ u * |x|)
    (pol : Bool) (s b : Exps) (mb : ℕ) (M : ℤ) (l : ℕ) :
    Near (2 * ((1 + us) ^ (if pol then 3 else 1) * (1 + u) ^ 2) - 1) (tmpV f pol s b mb M l) (skyBeam pol s b l M mb)
      (absPair pol s b l M.natAbs mb) := by
  obtain ⟨e1, e2, e3, e4, q1, q2, q3, q4, n1, n2, n3, n4, b1, b2, v1, v2⟩ := prodsV_near h0 h pol s b l M.natAbs mb
  set K := (1 + us) ^ (if pol then 3 else 1)
  have hK : 1 ≤ K := one_le_pow' h0 _
  have hK2 : 1 ≤ K * (1 + u) ^ 2 := by nlinarith [one_le_pow' u0 2]
  have hKm : K * (1 + u) ≤ K * (1 + u) ^ 2 := mul_le_mul_of_nonneg_left (by nlinarith) (by linarith)
  unfold tmpV
  dsimp only
  by_cases hM : 0 ≤ M
  · rw [if_pos hM]
    have hMe : ((M.natAbs : ℕ) : ℤ) = M := by omega
    rw [hMe] at v1
    have a1 := (near_rs u0 hu (n1.add n2)).mono hKm b1
    have a2 := (near_rs u0 hu (n3.sub n4)).mono hKm b2
    refine Near.pair ?_ ?_ hK2 (skyBeam_norm ..)
    · rw [← v1]; exact a1.err
    · rw [← v1]; exact a2.err
  · rw [if_neg hM]
    have hMe : -((M.natAbs : ℕ) : ℤ) = M := by omega
    have v := v2 (by omega)
    rw [hMe] at v
    have hx : xpow (M.natAbs : ℕ) 1 = (-1) ^ M.natAbs := by rw [xpow_nat, mul_one]
    have a1 := (near_sign u0 hu (xpow_abs M.natAbs) (near_rs u0 hu (n1.sub n2))).mono (le_of_eq (by ring : _ = K * (1 + u) ^ 2)) b1
    have a2 := (near_sign u0 hu (σ := -xpow (M.natAbs : ℕ) 1) (by rw [abs_neg]; exact xpow_abs M.natAbs) (near_rs u0 hu (n3.add n4))).mono
      (le_of_eq (by ring : _ = K * (1 + u) ^ 2)) b2
    refine Near.pair ?_ ?_ hK2 (skyBeam_norm ..)
    · rw [← v]; rw [hx] at a1; rw [hx]; exact a1.err
    · rw [← v]; rw [hx] at a2; rw [hx]; exact a2.err

/-! ## elements -/

theorem elemV_near {f : FKern} {ovf : Res ℤ} {c : Tod.Cfg} {eps us u δ κ φ : ℝ} (hA : Accurate f ovf c eps us u δ κ φ)
    {mb : ℕ} {M : ℤ} {it l : ℕ} (hmb : mb < c.npsi) (hM : |M| ≤ c.lmax) (hl : kfirst ovf c.lmax [Tod.ringTheta c it] eps mb M.natAbs 0 ≤ l)
    (hl' : l ≤ c.lmax) (hbl : mb ≤ l) (hMl : M.natAbs ≤ l) (south : Bool) :
    Near ((1 + δ) * (1 + u) ^ 2) (elemV f south mb M it l)
      ((-1) ^ (M.natAbs + mb) * wignerD l mb M (angleOf south (Tod.ringTheta c it))) 1 := by
  have ab : |(mb : ℤ)| ≤ l := by rw [abs_of_nonneg (by omega)]; omega
  have am : |M| ≤ (l : ℤ) := natAbs_abs_le hMl
  have amn : |-M| ≤ (l : ℤ) := by rw [abs_neg]; exact am
  have hsq : |xpow (M.natAbs : ℕ) 1 * xpow mb 1| = 1 := by rw [abs_mul, xpow_abs, xpow_abs, mul_one]
  have hs : xpow (M.natAbs : ℕ) 1 * xpow mb 1 = (-1) ^ (M.natAbs + mb) := by rw [xpow_nat, xpow_nat, pow_add]; ring
  have hs2 : xpow l (xpow mb 1) = (-1) ^ (l + mb) := by rw [xpow_nat, xpow_nat, pow_add]; ring
  have base : ∀ k : ℤ, |k| ≤ (l : ℤ) → k.natAbs = M.natAbs →
      Near (1 + δ) (genV f mb k it l) (wignerD l mb k (genAngle (Tod.ringTheta c it))) 1 := by
    intro k hk hkM
    refine ⟨by linarith [hA.δ0], ?_, ?_⟩
    · rw [Real.norm_eq_abs]
      have := hA.elem mb k it l hmb (by rw [Int.abs_eq_natAbs] at hM ⊢; omega) (by rw [hkM]; exact hl) hl'
      unfold genV
      linarith
    · rw [Real.norm_eq_abs]; exact abs_wignerD_le_one l ab hk _
  unfold elemV angleOf
  cases south with
  | false =>
    simp only [Bool.false_eq_true, if_false]
    have := near_sign hA.u0 hA.double hsq (base M am rfl)
    rw [hs] at this
    refine Near.mono (by rw [hs]; exact this) ?_ le_rfl
    apply mul_le_mul_of_nonneg_left _ (by linarith [hA.δ0])
    nlinarith [hA.u0]
  | true =>
    simp only [if_true]
    have h1 := near_sign hA.u0 hA.double hsq (base (-M) amn (Int.natAbs_neg M))
    have h2 := near_sign hA.u0 hA.double (σ := xpow l (xpow mb 1)) (by rw [hs2, abs_pow, abs_neg, abs_one, one_pow]) h1
    rw [wignerD_pi_sub l ab am, Int.natAbs_natCast]
    have e : (-1 : ℝ) ^ (M.natAbs + mb) * ((-1) ^ (l + mb) * wignerD l mb (-M) (genAngle (Tod.ringTheta c it))) =
        xpow l (xpow mb 1) * (xpow (M.natAbs : ℕ) 1 * xpow mb 1 * wignerD l mb (-M) (genAngle (Tod.ringTheta c it))) := by
      rw [hs, hs2]; ring
    rw [e]
    exact h2.mono (le_of_eq (by ring)) le_rfl

/-! ## cells -/

theorem rbC_norm {f : FKern} {u : ℝ} (u0 : 0 ≤ u) (hu : ∀ x, |f.rb x - x| ≤ u * |x|) (z : ℂ) : ‖rbC f z - z‖ ≤ u * ‖z‖ :=
  norm_le_of_parts u0 (by simpa [rbC] using hu z.re) (by simpa [rbC] using hu z.im)

/-- Growth up to the accumulation. -/
noncomputable def growthX (pol : Bool) (us u δ : ℝ) : ℝ :=
  (2 * ((1 + us) ^ (if pol then 3 else 1) * (1 + u) ^ 2) - 1) * ((1 + δ) * (1 + u) ^ 2) * (1 + u)

theorem growthX_one_le (pol : Bool) {us u δ : ℝ} (h1 : 0 ≤ us) (h2 : 0 ≤ u) (h3 : 0 ≤ δ) : 1 ≤ growthX pol us u δ := by
  unfold growthX
  have a := one_le_pow' h1 (if pol then 3 else 1)
  have b := one_le_pow' h2 2
  have ab : 1 ≤ (1 + us) ^ (if pol then 3 else 1) * (1 + u) ^ 2 := one_le_mul_of_one_le_of_one_le a b
  refine one_le_mul_of_one_le_of_one_le (one_le_mul_of_one_le_of_one_le (by linarith) ?_) (by linarith)
  exact one_le_mul_of_one_le_of_one_le (by linarith) b

theorem accV_near {f : FKern} {ovf : Res ℤ} {c : Tod.Cfg} {eps us u δ κ φ : ℝ} (hA : Accurate f ovf c eps us u δ κ φ)
    (pol : Bool) (s b : Exps) {mb : ℕ} {M : ℤ} {it : ℕ} (hmb : mb < c.npsi) (hM : |M| ≤ c.lmax) (south : Bool) {F : ℕ}
    (hF : F = kfirst ovf c.lmax [Tod.ringTheta c it] eps mb M.natAbs 0) (hb : mb ≤ F) (hMF : M.natAbs ≤ F) :
    ∀ n, F + n ≤ c.lmax + 1 → Near (growthX pol us u δ * (1 + u) ^ n) (accV f pol s b south mb M it F n 0)
      (∑ l ∈ Ico F (F + n), kterm pol s b l M mb (angleOf south (Tod.ringTheta c it))) (∑ l ∈ Ico F (F + n), absPair pol s b l M.natAbs mb) := by
  have g1 := growthX_one_le pol hA.us0 hA.u0 hA.δ0
  intro n
  induction n with
  | zero =>
    intro _
    simp only [accV, Nat.add_zero, Ico_self, sum_empty, pow_zero, mul_one]
    exact ⟨g1, by simp, by simp⟩
  | succ n ih =>
    intro hn
    have ih' := ih (by omega)
    rw [show F + (n + 1) = F + n + 1 by ring, sum_Ico_succ_top (by omega), sum_Ico_succ_top (by omega)]
    have ht := tmpV_near hA.us0 hA.single hA.u0 hA.double pol s b mb M (F + n)
    have he := elemV_near hA hmb hM (it := it) (l := F + n) (by omega) (by omega) (by omega) (by omega) south
    have heC : Near ((1 + δ) * (1 + u) ^ 2) ((elemV f south mb M it (F + n) : ℝ) : ℂ)
        (((-1) ^ (M.natAbs + mb) * wignerD (F + n) mb M (angleOf south (Tod.ringTheta c it)) : ℝ) : ℂ) 1 := by
      refine ⟨he.one_le, ?_, ?_⟩
      · rw [← Complex.ofReal_sub, Complex.norm_real]; exact he.err
      · rw [Complex.norm_real]; exact he.bound
    have hx := (ht.mul heC).round hA.u0 (rbC_norm hA.u0 hA.double _)
    have hk : skyBeam pol s b (F + n) M mb *
        (((-1) ^ (M.natAbs + mb) * wignerD (F + n) mb M (angleOf south (Tod.ringTheta c it)) : ℝ) : ℂ) =
        kterm pol s b (F + n) M mb (angleOf south (Tod.ringTheta c it)) := by
      unfold kterm
      rw [Int.natAbs_natCast]
      push_cast; ring
    rw [hk, mul_one] at hx
    have hx' := hx.mono (κ' := growthX pol us u δ * (1 + u) ^ n) (by
      unfold growthX
      exact le_mul_of_one_le_right (by have := hx.one_le; linarith) (one_le_pow' hA.u0 n)) le_rfl
    have := (ih'.add hx').round hA.u0 (rbC_norm hA.u0 hA.double _)
    rw [mul_assoc, ← pow_succ] at this
    exact this

theorem genShape {f : FKern} {ovf : Res ℤ} {v : ℤ} (hovf : ovf = ok v) {pol : Bool} {s b : Exps} {c : Tod.Cfg} {eps us u δ κ φ : ℝ}
    (h : KernelOK pol s b c.lmax c.npsi) (hA : Accurate f ovf c eps us u δ κ φ) : GenShape f c.lmax c.npsi := by
  refine ⟨fun mb m it hmb hm => ?_, hA.len⟩
  rw [hA.first mb m it hmb hm]
  have K := kfirst_ok hovf h.pos h.lt h.npsi_le [Tod.ringTheta c it] eps
  have a := K.lo m mb 0 (by rw [abs_of_nonneg (by omega)]; exact_mod_cast hm) hmb (by simp)
  simp only [Int.natAbs_natCast] at a
  exact_mod_cast max_le a.1 a.2

theorem cellV_near {f : FKern} {ovf : Res ℤ} {v : ℤ} (hovf : ovf = ok v) {pol : Bool} {s b : Exps} {c : Tod.Cfg} {eps us u δ κ φ : ℝ}
    (h : KernelOK pol s b c.lmax c.npsi) (hA : Accurate f ovf c eps us u δ κ φ) {mb : ℕ} {M : ℤ} (it : ℕ) (hmb : mb < c.npsi)
    (hM : |M| ≤ c.lmax) (south : Bool) :
    Near (growthX pol us u δ * (1 + u) ^ (c.lmax + 1)) (cellV f pol s b c.lmax south mb M it 0)
      (∑ l ∈ Ico (kfirst ovf c.lmax [Tod.ringTheta c it] eps mb M.natAbs 0) (c.lmax + 1),
        kterm pol s b l M mb (angleOf south (Tod.ringTheta c it)))
      (∑ l ∈ Icc (max M.natAbs mb) c.lmax, absPair pol s b l M.natAbs mb) := by
  have K := kfirst_ok hovf h.pos h.lt h.npsi_le [Tod.ringTheta c it] eps
  obtain ⟨l1, l2⟩ := K.lo M mb 0 hM hmb (by simp)
  have l3 := K.hi M mb 0 hM hmb (by simp)
  have hMn : M.natAbs ≤ c.lmax := by rw [Int.abs_eq_natAbs] at hM; exact_mod_cast hM
  have hF : firstV f mb M.natAbs it = kfirst ovf c.lmax [Tod.ringTheta c it] eps mb M.natAbs 0 := by
    unfold firstV
    rw [hA.first mb M.natAbs it hmb hMn, Int.toNat_natCast]
  unfold cellV
  rw [hF]
  set F := kfirst ovf c.lmax [Tod.ringTheta c it] eps mb M.natAbs 0 with hFd
  have := accV_near hA pol s b hmb hM south hFd l1 l2 (c.lmax + 1 - F) (by omega)
  rw [show F + (c.lmax + 1 - F) = c.lmax + 1 by omega] at this
  refine this.mono ?_ ?_
  · exact mul_le_mul_of_nonneg_left (pow_le_pow_right₀ (by linarith [hA.u0]) (by omega))
      (by linarith [growthX_one_le pol hA.us0 hA.u0 hA.δ0])
  · refine sum_le_sum_of_subset_of_nonneg (fun l hl => ?_) (fun l _ _ => ?_)
    · rw [mem_Ico] at hl; rw [mem_Icc]; omega
    · unfold absPair; split <;> positivity

/-! ## rotations -/

theorem rotR_near {f : FKern} {u κ : ℝ} (u0 : 0 ≤ u) (hu : ∀ x, |f.rb x - x| ≤ u * |x|) (κ0 : 0 ≤ κ) {cc ss a : ℝ}
    (hc : |cc - Real.cos a| ≤ κ) (hs : |ss - Real.sin a| ≤ κ) {k Q : ℝ} {z y : ℂ} (h : Near k z y Q) :
    Near (k * ((1 + 2 * κ) * (1 + 2 * u) * (1 + u))) (rotR f cc ss z) (Complex.exp (-(a * Complex.I)) * y) Q := by
  have hexp : Complex.exp (-(a * Complex.I)) = ⟨Real.cos a, -Real.sin a⟩ := by
    rw [show -(a * Complex.I) = ((-a : ℝ) : ℂ) * Complex.I by push_cast; ring, Complex.exp_mul_I, ← Complex.ofReal_cos,
      ← Complex.ofReal_sin, Real.cos_neg, Real.sin_neg]
    apply Complex.ext <;> simp [Complex.cos_ofReal_re, Complex.sin_ofReal_re]
  have hn : ‖Complex.exp (-(a * Complex.I))‖ = 1 := by
    rw [show -(a * Complex.I) = ((-a : ℝ) : ℂ) * Complex.I by push_cast; ring, Complex.norm_exp_ofReal_mul_I]
  have h1 : Near (1 + 2 * κ) (⟨cc, -ss⟩ : ℂ) (Complex.exp (-(a * Complex.I))) 1 := by
    have := Near.pair (κ := 1 + κ) (Q := 1) (a := cc) (b := -ss) (z := Complex.exp (-(a * Complex.I))) (by rw [hexp]; simpa using hc) (by
      rw [hexp]; dsimp only
      rw [show -ss - -Real.sin a = -(ss - Real.sin a) by ring, abs_neg]; simpa using hs) (by linarith) hn.le
    rwa [show 2 * (1 + κ) - 1 = 1 + 2 * κ by ring] at this
  have h2 := h1.mul h
  rw [one_mul] at h2
  set w : ℂ := ⟨cc, -ss⟩ with hw
  have hr : rotR f cc ss z = rbC f ⟨f.rb (cc * z.re) + f.rb (ss * z.im), f.rb (cc * z.im) - f.rb (ss * z.re)⟩ := rfl
  rw [hr]
  have h3 := h2.round (u := 2 * u) (by linarith) (r := ⟨f.rb (cc * z.re) + f.rb (ss * z.im), f.rb (cc * z.im) - f.rb (ss * z.re)⟩) (by
    refine (Complex.norm_le_abs_re_add_abs_im _).trans ?_
    rw [norm_mul]
    have p1 := cs_le w z
    have p2 := cs_le' w z
    have q1 := hu (cc * z.re)
    have q2 := hu (ss * z.im)
    have q3 := hu (cc * z.im)
    have q4 := hu (ss * z.re)
    simp only [hw, neg_mul, abs_neg] at p1 p2
    have e1 : |(f.rb (cc * z.re) + f.rb (ss * z.im)) - (cc * z.re + ss * z.im)| ≤ u * (‖w‖ * ‖z‖) := by
      rw [show (f.rb (cc * z.re) + f.rb (ss * z.im)) - (cc * z.re + ss * z.im) =
        (f.rb (cc * z.re) - cc * z.re) + (f.rb (ss * z.im) - ss * z.im) by ring]
      refine (abs_add_le _ _).trans ?_
      have := mul_le_mul_of_nonneg_left p1 u0
      linarith
    have e2 : |(f.rb (cc * z.im) - f.rb (ss * z.re)) - (cc * z.im - ss * z.re)| ≤ u * (‖w‖ * ‖z‖) := by
      rw [show (f.rb (cc * z.im) - f.rb (ss * z.re)) - (cc * z.im - ss * z.re) =
        (f.rb (cc * z.im) - cc * z.im) - (f.rb (ss * z.re) - ss * z.re) by ring]
      refine (abs_sub _ _).trans ?_
      have := mul_le_mul_of_nonneg_left p2 u0
      linarith
    have r1 : ((⟨f.rb (cc * z.re) + f.rb (ss * z.im), f.rb (cc * z.im) - f.rb (ss * z.re)⟩ : ℂ) - w * z).re =
        (f.rb (cc * z.re) + f.rb (ss * z.im)) - (cc * z.re + ss * z.im) := by simp [hw]
    have r2 : ((⟨f.rb (cc * z.re) + f.rb (ss * z.im), f.rb (cc * z.im) - f.rb (ss * z.re)⟩ : ℂ) - w * z).im =
        (f.rb (cc * z.im) - f.rb (ss * z.re)) - (cc * z.im - ss * z.re) := by simp [hw]; ring
    rw [r1, r2]
    linarith)
  have h4 := h3.round u0 (rbC_norm u0 hu _)
  exact h4.mono (le_of_eq (by ring)) le_rfl

/-! ## synthesis -/

theorem synthV_near {f : FKern} {ovf : Res ℤ} {c : Tod.Cfg} {eps us u δ κ φ : ℝ} (hA : Accurate f ovf c eps us u δ κ φ)
    (hn : c.npsi ≤ c.lmax + 1) {k0 : ℝ} {C D : ℕ → ℂ} {Q : ℕ → ℝ} (hk0 : 1 ≤ k0) (hC : ∀ i < c.nphi, Near k0 (C i) (D i) (Q i)) {p k : ℕ}
    (hp : p < c.nphi) (hk : k < c.npsi) :
    Near (k0 * ((1 + 2 * κ) * (1 + 2 * u) * (1 + u)) ^ 3 * (1 + φ)) (synthV f c.lmax C p k)
      (Complex.exp (Real.pi / 2 * (k : ℝ) * Complex.I) * (Complex.exp (-(p * (2 * Real.pi * c.lmax / (2 * c.lmax + 1)) * Complex.I)) *
        ∑ i ∈ range c.nphi, (Complex.exp (Real.pi / 2 * ((i : ℝ) - c.lmax) * Complex.I) * D i) *
          Complex.exp (2 * Real.pi * Complex.I * i * p / c.nphi))) (∑ i ∈ range c.nphi, Q i) := by
  set R := (1 + 2 * κ) * (1 + 2 * u) * (1 + u) with hR
  have hR1 : 1 ≤ R := by
    rw [hR]
    exact one_le_mul_of_one_le_of_one_le (one_le_mul_of_one_le_of_one_le (by linarith [hA.κ0]) (by linarith [hA.u0])) (by linarith [hA.u0])
  have hnphi : c.nphi = 2 * c.lmax + 1 := rfl
  set xs := (List.range (2 * c.lmax + 1)).map (fun ii => rotR f (f.cs.getD ii 0) (f.sn.getD ii 0) (C ii)) with hxs
  have hxl : xs.length = c.nphi := by simp [hxs, hnphi]
  have hx : ∀ i < c.nphi, xs.getD i 0 = rotR f (f.cs.getD i 0) (f.sn.getD i 0) (C i) := by
    intro i hi
    rw [List.getD_eq_getElem?_getD, hxs, List.getElem?_map, List.getElem?_range (by omega)]; rfl
  have hA1 : ∀ i ∈ range c.nphi, Near (k0 * R) (xs.getD i 0) (Complex.exp (Real.pi / 2 * ((i : ℝ) - c.lmax) * Complex.I) * D i) (Q i) := by
    intro i hi
    have hi' := mem_range.mp hi
    rw [hx i hi']
    have := rotR_near hA.u0 hA.double hA.κ0 (hA.cs i hi') (hA.sn i hi') (hC i hi')
    rw [show -(((-(Real.pi / 2) * ((i : ℝ) - c.lmax) : ℝ) : ℂ) * Complex.I) = Real.pi / 2 * ((i : ℝ) - c.lmax) * Complex.I by
      push_cast; ring] at this
    exact this
  have hB : Near (k0 * R * (1 + φ)) ((f.fft xs).getD p 0) (∑ i ∈ range c.nphi, (Complex.exp (Real.pi / 2 * ((i : ℝ) - c.lmax) * Complex.I) * D i) *
          Complex.exp (2 * Real.pi * Complex.I * i * p / c.nphi)) (∑ i ∈ range c.nphi, Q i) := by
    have hnorm : ∀ i : ℕ, ‖Complex.exp (2 * Real.pi * Complex.I * i * p / c.nphi)‖ = 1 := by
      intro i
      rw [show 2 * Real.pi * Complex.I * i * p / c.nphi = ((2 * Real.pi * i * p / c.nphi : ℝ) : ℂ) * Complex.I by push_cast; ring,
        Complex.norm_exp_ofReal_mul_I]
    have h1 : 1 ≤ k0 * R := one_le_mul_of_one_le_of_one_le hk0 hR1
    have hs : Near (k0 * R) (∑ j ∈ range c.nphi, xs.getD j 0 * Complex.exp (2 * Real.pi * Complex.I * j * p / c.nphi))
        (∑ i ∈ range c.nphi, (Complex.exp (Real.pi / 2 * ((i : ℝ) - c.lmax) * Complex.I) * D i) *
          Complex.exp (2 * Real.pi * Complex.I * i * p / c.nphi)) (∑ i ∈ range c.nphi, Q i) := by
      refine Near.sum h1 fun i hi => ?_
      have := (hA1 i hi).mul (Near.refl (E := ℂ) (y := Complex.exp (2 * Real.pi * Complex.I * i * p / c.nphi)) (hnorm i).le)
      simpa using this
    have hf := hA.fft xs hxl p hp
    have hsum : ∑ j ∈ range c.nphi, ‖xs.getD j 0‖ ≤ k0 * R * ∑ i ∈ range c.nphi, Q i := by
      rw [mul_sum]
      exact sum_le_sum fun i hi => (hA1 i hi).norm_le
    refine ⟨one_le_mul_of_one_le_of_one_le h1 (by linarith [hA.φ0]), ?_, hs.bound⟩
    have t := norm_add_le ((f.fft xs).getD p 0 - ∑ j ∈ range c.nphi, xs.getD j 0 * Complex.exp (2 * Real.pi * Complex.I * j * p / c.nphi))
      (∑ j ∈ range c.nphi, xs.getD j 0 * Complex.exp (2 * Real.pi * Complex.I * j * p / c.nphi) -
        ∑ i ∈ range c.nphi, (Complex.exp (Real.pi / 2 * ((i : ℝ) - c.lmax) * Complex.I) * D i) *
          Complex.exp (2 * Real.pi * Complex.I * i * p / c.nphi))
    rw [sub_add_sub_cancel] at t
    have e := hs.err
    have e2 := mul_le_mul_of_nonneg_left hsum hA.φ0
    refine t.trans ?_
    calc _ ≤ φ * (k0 * R * ∑ i ∈ range c.nphi, Q i) + (k0 * R - 1) * ∑ i ∈ range c.nphi, Q i := by linarith
      _ = _ := by ring
  unfold synthV
  have h0 := rotR_near hA.u0 hA.double hA.κ0 (hA.cs0 p hp) (hA.sn0 p hp) hB
  have hj : k + c.lmax < c.nphi := by omega
  have h1 := rotR_near hA.u0 hA.double hA.κ0 (hA.cs _ hj) (hA.sn _ hj) h0
  have e1 : -(((-(Real.pi / 2) * (((k + c.lmax : ℕ) : ℝ) - c.lmax) : ℝ) : ℂ) * Complex.I) = Real.pi / 2 * (k : ℝ) * Complex.I := by
    push_cast; ring
  have e0 : -(((p * (2 * Real.pi * c.lmax / (2 * c.lmax + 1)) : ℝ) : ℂ) * Complex.I) =
      -(p * (2 * Real.pi * c.lmax / (2 * c.lmax + 1)) * Complex.I) := by push_cast; rfl
  rw [e1, e0] at h1
  exact h1.mono (le_of_eq (by ring)) le_rfl

/-- The synthesis formula in the form of C18. -/
theorem synth_sum (lmax : ℕ) (D : ℕ → ℂ) (p k : ℕ) :
    Complex.exp (Real.pi / 2 * (k : ℝ) * Complex.I) * (Complex.exp (-(p * (2 * Real.pi * lmax / (2 * lmax + 1)) * Complex.I)) *
        ∑ i ∈ range (2 * lmax + 1), (Complex.exp (Real.pi / 2 * ((i : ℝ) - lmax) * Complex.I) * D i) *
          Complex.exp (2 * Real.pi * Complex.I * i * p / ((2 * lmax + 1 : ℕ) : ℂ))) =
      Complex.exp (Complex.I * (Real.pi / 2) * k) * ∑ m ∈ Icc (-(lmax : ℤ)) lmax, D (m + lmax).toNat * Complex.exp (Complex.I * m * phiK lmax p) := by
  have e1 : Complex.exp (Real.pi / 2 * ((k : ℝ) : ℂ) * Complex.I) = Complex.exp (Complex.I * (Real.pi / 2) * k) := by
    congr 1; push_cast; ring
  rw [e1]
  congr 1
  rw [Finset.mul_sum]
  symm
  apply Finset.sum_bij' (fun (m : ℤ) _ => (m + lmax).toNat) (fun (i : ℕ) _ => (i : ℤ) - lmax)
  · intro m hm; rw [Finset.mem_Icc] at hm; rw [Finset.mem_range]; omega
  · intro i hi; rw [Finset.mem_range] at hi; rw [Finset.mem_Icc]; omega
  · intro m hm; rw [Finset.mem_Icc] at hm; omega
  · intro i hi; rw [Finset.mem_range] at hi; omega
  · intro m hm
    rw [Finset.mem_Icc] at hm
    have hmi : (((m + lmax).toNat : ℕ) : ℂ) = (m : ℂ) + lmax := by
      have : (((m + lmax).toNat : ℕ) : ℤ) = m + lmax := by omega
      exact_mod_cast congrArg (Int.cast : ℤ → ℂ) this
    set d := D (m + lmax).toNat
    have hpos : (2 * (lmax : ℂ) + 1) ≠ 0 := by exact_mod_cast (by omega : (2 * lmax + 1) ≠ 0)
    have : Complex.exp (Complex.I * m * phiK lmax p) =
        Complex.exp (-(p * (2 * Real.pi * lmax / (2 * lmax + 1)) * Complex.I)) *
        (Complex.exp (Real.pi / 2 * (((m + lmax).toNat : ℝ) - lmax) * Complex.I) *
          Complex.exp (2 * Real.pi * Complex.I * ((m + lmax).toNat : ℕ) * p / ((2 * lmax + 1 : ℕ) : ℂ))) := by
      rw [← Complex.exp_add, ← Complex.exp_add]
      congr 1
      unfold phiK
      push_cast
      rw [hmi]
      field_simp
      ring
    rw [this]
    push_cast
    ring

/-! ## rings -/

theorem ring_sample_near {f : FKern} {ovf : Res ℤ} {v : ℤ} (hovf : ovf = ok v) {pol : Bool} {s b : Exps} {c : Tod.Cfg}
    {eps us u δ κ φ : ℝ} (h : KernelOK pol s b c.lmax c.npsi) (hA : Accurate f ovf c eps us u δ κ φ) (south : Bool) (it : ℕ) {p k : ℕ}
    (hp : p < c.nphi) (hk : k < c.npsi) :
    ‖synthV f c.lmax (fun ii => cellV f pol s b c.lmax south k ((ii : ℤ) - c.lmax) it 0) p k -
      ringVal ovf pol s b c.lmax eps (Tod.ringTheta c it) (angleOf south (Tod.ringTheta c it)) p k‖ ≤
      (growth pol c.lmax us u δ κ φ - 1) * ∑ m ∈ Icc (-(c.lmax : ℤ)) c.lmax, ∑ l ∈ Icc (max m.natAbs k) c.lmax, absPair pol s b l m.natAbs k := by
  set Q : ℕ → ℝ := fun i => ∑ l ∈ Icc (max ((i : ℤ) - c.lmax).natAbs k) c.lmax, absPair pol s b l ((i : ℤ) - c.lmax).natAbs k with hQ
  set D : ℕ → ℂ := fun i => ∑ l ∈ Ico (kfirst ovf c.lmax [Tod.ringTheta c it] eps k ((i : ℤ) - c.lmax).natAbs 0) (c.lmax + 1),
        kterm pol s b l ((i : ℤ) - c.lmax) k (angleOf south (Tod.ringTheta c it)) with hD
  have hnphi : c.nphi = 2 * c.lmax + 1 := rfl
  have g1 := growthX_one_le pol hA.us0 hA.u0 hA.δ0
  have key := synthV_near hA h.npsi_le (k0 := growthX pol us u δ * (1 + u) ^ (c.lmax + 1)) (D := D) (Q := Q)
    (one_le_mul_of_one_le_of_one_le g1 (one_le_pow' hA.u0 _))
    (fun i hi => cellV_near hovf h hA it hk (M := (i : ℤ) - c.lmax) (abs_le.mpr ⟨by omega, by omega⟩) south) hp hk
  have hs := synth_sum c.lmax D p k
  rw [← hnphi] at hs
  rw [hs] at key
  have hv : Complex.exp (Complex.I * (Real.pi / 2) * k) *
      ∑ m ∈ Icc (-(c.lmax : ℤ)) c.lmax, D (m + c.lmax).toNat * Complex.exp (Complex.I * m * phiK c.lmax p) =
      ringVal ovf pol s b c.lmax eps (Tod.ringTheta c it) (angleOf south (Tod.ringTheta c it)) p k := by
    unfold ringVal
    congr 1
    refine sum_congr rfl fun m hm => ?_
    rw [mem_Icc] at hm
    have : (((m + c.lmax).toNat : ℕ) : ℤ) - c.lmax = m := by omega
    simp only [hD, this]
  rw [hv] at key
  have hq : ∑ i ∈ range c.nphi, Q i = ∑ m ∈ Icc (-(c.lmax : ℤ)) c.lmax, ∑ l ∈ Icc (max m.natAbs k) c.lmax, absPair pol s b l m.natAbs k := by
    symm
    apply Finset.sum_bij' (fun (m : ℤ) _ => (m + c.lmax).toNat) (fun (i : ℕ) _ => (i : ℤ) - c.lmax)
    · intro m hm; rw [Finset.mem_Icc] at hm; rw [Finset.mem_range]; omega
    · intro i hi; rw [Finset.mem_range] at hi; rw [Finset.mem_Icc]; omega
    · intro m hm; rw [Finset.mem_Icc] at hm; omega
    · intro i hi; rw [Finset.mem_range] at hi; omega
    · intro m hm
      rw [mem_Icc] at hm
      have : (((m + c.lmax).toNat : ℕ) : ℤ) - c.lmax = m := by omega
      simp only [hQ, this]
  rw [hq] at key
  have := key.err
  unfold growth
  unfold growthX at this
  exact this

theorem growth_one_le (pol : Bool) (lmax : ℕ) {us u δ κ φ : ℝ} (h1 : 0 ≤ us) (h2 : 0 ≤ u) (h3 : 0 ≤ δ) (h4 : 0 ≤ κ) (h5 : 0 ≤ φ) :
    1 ≤ growth pol lmax us u δ κ φ := by
  have g := growthX_one_le pol h1 h2 h3
  unfold growthX at g
  unfold growth
  refine one_le_mul_of_one_le_of_one_le (one_le_mul_of_one_le_of_one_le (one_le_mul_of_one_le_of_one_le g (one_le_pow' h2 _)) ?_) (by linarith)
  exact one_le_pow₀ (one_le_mul_of_one_le_of_one_le (one_le_mul_of_one_le_of_one_le (by linarith) (by linarith)) (by linarith))

/-- C64: in floating point, for any expansions that fit the convolver, any rings owned by the rank and any order in which the parallel
iterations run, the kernel is defined; every ring has the right number of doubles, does not depend on the other rings of the rank or the
order, and at every longitude differs from the exact ring, summed over the orders of the beam, by at most
`2 (growth - 1)` times the sum of the magnitudes of the products of coefficients. -/
theorem C64_rings {f : FKern} {ovf : Res ℤ} {v : ℤ} (hovf : ovf = ok v) {pol : Bool} {s b : Exps} {c : Tod.Cfg}
    {eps us u δ κ φ : ℝ} (h : KernelOK pol s b c.lmax c.npsi) (hA : Accurate f ovf c eps us u δ κ φ) {o' : Orders} (ho' : o'.OK c.lmax c.npsi)
    {fft : List ℂ → List ℂ} (hf : IsBackward fft c.nphi) :
    ∃ ring : Bool → ℕ → List ℝ,
      (∀ (o : Orders), o.OK c.lmax c.npsi → ∀ mine, kernelRingsR f o pol s b c mine = ok (mine.map (ring false), mine.map (ring true))) ∧
      ∀ south it, (ring south it).length = c.bufsize ∧
        RingClose c (ring south it) (ringOf ovf o' fft pol s b c eps south (Tod.ringTheta c it))
          (2 * (growth pol c.lmax us u δ κ φ - 1) * absMagnitude pol s b c.lmax c.mbeam) := by
  refine ⟨ringV f pol s b c, fun o ho mine => kernelRingsR_ok h (genShape hovf h hA) hA.shape ho mine, fun south it => ?_⟩
  obtain ⟨hl, hg⟩ := pack_spec c.nphi c.npsi ⟨c.nphi, c.npsi, 1, fun p k _ =>
    synthV f c.lmax (fun ii => cellV f pol s b c.lmax south k ((ii : ℤ) - c.lmax) it 0) p k⟩ 0
  have hspec := (ringOf_spec hovf h ho' hf eps south (Tod.ringTheta c it)).2
  refine ⟨hl, fun p hp => ?_⟩
  unfold absMagnitude
  have hg0 : 0 ≤ growth pol c.lmax us u δ κ φ - 1 := by linarith [growth_one_le pol c.lmax hA.us0 hA.u0 hA.δ0 hA.κ0 hA.φ0]
  rw [mul_sum]
  refine sum_le_sum fun k hk => ?_
  rw [mem_range] at hk
  obtain ⟨a1, a2⟩ := hspec p k hp hk
  obtain ⟨b1, b2⟩ := hg p k hp hk
  unfold ringV
  rw [a1, a2, b1, b2]
  have hn := ring_sample_near hovf h hA south it hp hk
  set X := synthV f c.lmax (fun ii => cellV f pol s b c.lmax south k ((ii : ℤ) - c.lmax) it 0) p k
  set Y := ringVal ovf pol s b c.lmax eps (Tod.ringTheta c it) (angleOf south (Tod.ringTheta c it)) p k
  have r1 := Complex.abs_re_le_norm (X - Y)
  have r2 := Complex.abs_im_le_norm (X - Y)
  rw [Complex.sub_re] at r1
  rw [Complex.sub_im] at r2
  linarith

end Verif.Num
