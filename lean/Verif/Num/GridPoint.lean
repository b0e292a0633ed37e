import Mathlib.Tactic.IntervalCases
import Verif.Num.RingData
import Verif.Tod.Node
import Verif.Tod.Witness

/-!
# The signal on grid nodes (C19)

End to end in exact arithmetic: from the two expansions to the value returned for a sample on a node of the interpolation
grid.
-/

namespace Verif.Num
open Verif Res Finset

/-! ## Specification -/

/-- One term of the total convolution: order `m` of the sky, order `m'` of the beam, degree `l`. -/
noncomputable def convTerm (pol : Bool) (s b : Exps) (l : ℕ) (m' m : ℤ) (theta phi psi : ℝ) : ℂ :=
  (-1) ^ m.natAbs * (wignerD l m' m theta : ℂ) * skyBeam pol s b l m m' *
    Complex.exp (Complex.I * m * phi) * Complex.exp (Complex.I * m' * psi)

/-- `Σ_{m'} Σ_m Σ_{l ≥ F m' m} (-1)^m d^l_{m'm}(θ) s_{lm} conj(b_{lm'}) e^{imφ} e^{im'ψ}` -/
noncomputable def totalConv (pol : Bool) (s b : Exps) (lmax mbeam : ℕ) (F : ℤ → ℤ → ℕ) (theta phi psi : ℝ) : ℂ :=
  ∑ m' ∈ Icc (-(mbeam : ℤ)) mbeam, ∑ m ∈ Icc (-(lmax : ℤ)) lmax, ∑ l ∈ Ico (F m' m) (lmax + 1),
    convTerm pol s b l m' m theta phi psi

/-- The expansion belongs to a real field: its order-zero coefficients up to degree `lmax` are real. -/
def RealField (pol : Bool) (lmax : ℕ) (s : Exps) : Prop :=
  (∀ l ≤ lmax, (coef s.T l 0).im = 0) ∧ (pol = true → ∀ l ≤ lmax, (coef s.G l 0).im = 0 ∧ (coef s.C l 0).im = 0)

/-- Admissible first degrees: never below `max |m| |m'|`; a degree is left out only if one of the two elements
`d^l_{m',±m}` is below the threshold. -/
structure FirstDegOK (F : ℤ → ℤ → ℕ) (lmax mbeam : ℕ) (eps theta : ℝ) : Prop where
  lo : ∀ m' m : ℤ, |m'| ≤ mbeam → |m| ≤ lmax → m'.natAbs ≤ F m' m ∧ m.natAbs ≤ F m' m
  hi : ∀ m' m : ℤ, |m'| ≤ mbeam → |m| ≤ lmax → F m' m ≤ lmax + 1
  dropped : ∀ m' m : ℤ, |m'| ≤ mbeam → |m| ≤ lmax → ∀ l : ℕ, m'.natAbs ≤ l → m.natAbs ≤ l → l ≤ lmax → l < F m' m →
    |wignerD l m' m theta| ≤ tau lmax eps ∨ |wignerD l m' (-m) theta| ≤ tau lmax eps

/-! ## reality -/

theorem coefZ_reality {a : Harm.Alm ℂ} {l : ℕ} (h : (coef a l 0).im = 0) (m : ℤ) :
    coefZ a l (-m) = (-1) ^ m.natAbs * (starRingEnd ℂ) (coefZ a l m) := by
  unfold coefZ
  have hsq : ∀ n : ℕ, ((-1 : ℂ) ^ n) * (-1) ^ n = 1 := by
    intro n; rw [← mul_pow]; norm_num
  rcases lt_trichotomy m 0 with h1 | h1 | h1
  · rw [if_pos (by omega), if_neg (by omega), Int.natAbs_neg]
    simp only [map_mul, map_pow, map_neg, map_one, Complex.conj_conj]
    rw [← mul_assoc, hsq, one_mul]
  · subst h1
    have : (starRingEnd ℂ) (coef a l 0) = coef a l 0 := Complex.conj_eq_iff_im.mpr h
    simp [this]
  · rw [if_neg (by omega), if_pos (by omega), Int.natAbs_neg]

theorem skyBeam_neg {pol : Bool} {s b : Exps} {lmax : ℕ} (hs : RealField pol lmax s) (hb : RealField pol lmax b) {l : ℕ} (hl : l ≤ lmax)
    (m m' : ℤ) :
    skyBeam pol s b l (-m) (-m') = (-1) ^ (m.natAbs + m'.natAbs) * (starRingEnd ℂ) (skyBeam pol s b l m m') := by
  unfold skyBeam
  rw [coefZ_reality (hs.1 l hl), coefZ_reality (hb.1 l hl)]
  cases pol with
  | false =>
    simp only [Bool.false_eq_true, if_false, add_zero, map_mul, map_pow, map_neg, map_one, Complex.conj_conj, pow_add]
    ring
  | true =>
    obtain ⟨g1, c1⟩ := hs.2 rfl l hl
    obtain ⟨g2, c2⟩ := hb.2 rfl l hl
    rw [coefZ_reality g1, coefZ_reality g2, coefZ_reality c1, coefZ_reality c2]
    simp only [if_true, map_mul, map_add, map_pow, map_neg, map_one, Complex.conj_conj, pow_add]
    ring

theorem convTerm_neg {pol : Bool} {s b : Exps} {lmax : ℕ} (hs : RealField pol lmax s) (hb : RealField pol lmax b) {l : ℕ} (hl : l ≤ lmax)
    {m' m : ℤ} (h' : |m'| ≤ l) (h : |m| ≤ l) (theta phi psi : ℝ) :
    convTerm pol s b l (-m') (-m) theta phi psi = (starRingEnd ℂ) (convTerm pol s b l m' m theta phi psi) := by
  unfold convTerm
  rw [skyBeam_neg hs hb hl, wignerD_neg_neg l h' h, Int.natAbs_neg]
  have e : ∀ (k : ℤ) (x : ℝ), Complex.exp (Complex.I * ((-k : ℤ) : ℂ) * x) = (starRingEnd ℂ) (Complex.exp (Complex.I * k * x)) := by
    intro k x
    rw [← Complex.exp_conj]
    congr 1
    simp only [map_mul, Complex.conj_I, Complex.conj_ofReal, map_intCast]
    push_cast; ring
  rw [e, e]
  simp only [map_mul, map_pow, map_neg, map_one, Complex.conj_ofReal]
  push_cast
  have hsq : ((-1 : ℂ) ^ (m'.natAbs + m.natAbs)) * (-1) ^ (m.natAbs + m'.natAbs) = 1 := by
    rw [add_comm, ← mul_pow]; norm_num
  linear_combination ((-1 : ℂ) ^ m.natAbs * (wignerD l m' m theta : ℂ) * (starRingEnd ℂ) (skyBeam pol s b l m m') *
    (starRingEnd ℂ) (Complex.exp (Complex.I * m * phi)) * (starRingEnd ℂ) (Complex.exp (Complex.I * m' * psi))) * hsq

/-- Sum over orders of both signs of terms in conjugate pairs. -/
theorem sum_conj_pairs (g : ℤ → ℂ) (M : ℕ) (h : ∀ k : ℤ, |k| ≤ M → g (-k) = (starRingEnd ℂ) (g k)) :
    ∑ k ∈ Icc (-(M : ℤ)) M, g k = ((∑ k ∈ range (M + 1), (if k = 0 then 1 else 2) * (g k).re : ℝ) : ℂ) := by
  induction M with
  | zero =>
    simp only [Nat.cast_zero, neg_zero, Icc_self, sum_singleton, zero_add, range_one, if_true, one_mul]
    have := h 0 (by simp)
    rw [neg_zero] at this
    exact (Complex.conj_eq_iff_re.mp this.symm).symm
  | succ M ih =>
    have hI : Icc (-((M + 1 : ℕ) : ℤ)) ((M + 1 : ℕ) : ℤ) =
        insert (-((M + 1 : ℕ) : ℤ)) (insert ((M + 1 : ℕ) : ℤ) (Icc (-(M : ℤ)) M)) := by
      ext x; simp only [mem_Icc, mem_insert]; push_cast; omega
    rw [hI, sum_insert (by simp only [mem_Icc, mem_insert]; push_cast; omega),
      sum_insert (by simp only [mem_Icc]; push_cast; omega),
      ih (fun k hk => h k (by push_cast; omega)), sum_range_succ _ (M + 1), h _ (by
        rw [abs_of_nonneg (by positivity)])]
    rw [if_neg (by omega)]
    have : (starRingEnd ℂ) (g ((M + 1 : ℕ) : ℤ)) + g ((M + 1 : ℕ) : ℤ) = ((2 * (g ((M + 1 : ℕ) : ℤ)).re : ℝ) : ℂ) := by
      rw [add_comm, Complex.add_conj]
    rw [← add_assoc, this]
    push_cast
    ring

theorem sum_neg_orders (g : ℤ → ℂ) (M : ℕ) : ∑ k ∈ Icc (-(M : ℤ)) M, g (-k) = ∑ k ∈ Icc (-(M : ℤ)) M, g k := by
  apply Finset.sum_bij (fun k _ => -k)
  · intro k hk; rw [mem_Icc] at hk ⊢; omega
  · intro a _ b _ hab; omega
  · intro b hb; rw [mem_Icc] at hb; exact ⟨-b, by rw [mem_Icc]; omega, by ring⟩
  · intro _ _; rfl

/-! ## the signal on a node -/

/-- Colatitude at which the d-functions are evaluated for a sample at `theta`. -/
noncomputable def evalTheta (theta : ℝ) : ℝ := angleOf (decide (Real.pi / 2 ≤ theta)) (Tod.foldGt theta)

/-- Inside `(0, π)` the d-functions are evaluated at the colatitude of the sample, at the poles `1e-16` away from it. -/
theorem evalTheta_eq {theta : ℝ} (h0 : 0 ≤ theta) (h1 : theta ≤ Real.pi) :
    (0 < theta → theta < Real.pi → evalTheta theta = theta) ∧ |evalTheta theta - theta| ≤ 1 / 10 ^ 16 := by
  have hpi := Real.pi_gt_three
  have key : 0 < theta → theta < Real.pi → evalTheta theta = theta := by
    intro a b
    have ht : (1:ℝ) / 10 ^ 15 ≤ 1 := by norm_num
    unfold evalTheta angleOf
    by_cases h : Real.pi / 2 < theta
    · rw [Tod.foldGt_real, if_pos h, if_pos (decide_eq_true h.le), (genAngle_eq (by linarith) (by linarith)).1]; ring
    · rw [Tod.foldGt_real, if_neg h, (genAngle_eq a (by linarith)).1]
      by_cases h2 : Real.pi / 2 ≤ theta
      · rw [if_pos (decide_eq_true h2)]; linarith
      · rw [if_neg (by simpa using h2)]
  refine ⟨key, ?_⟩
  rcases eq_or_lt_of_le h0 with h | h
  · have e : evalTheta theta = 1 / 10 ^ 16 := by
      rw [← h]
      unfold evalTheta angleOf
      rw [Tod.foldGt_of_le (by positivity), genAngle_poles.1]
      have : ¬ (Real.pi / 2 ≤ 0) := by linarith
      simp [this]
    rw [e, ← h, sub_zero, abs_of_pos (by positivity)]
  · rcases eq_or_lt_of_le h1 with h2 | h2
    · have e : evalTheta theta = Real.pi - 1 / 10 ^ 16 := by
        rw [h2]
        unfold evalTheta angleOf
        have h3 : Real.pi / 2 < Real.pi := by linarith
        rw [Tod.foldGt_real, if_pos h3, sub_self, genAngle_poles.1, if_pos (decide_eq_true h3.le)]
      rw [e, h2]
      have : Real.pi - 1 / 10 ^ 16 - Real.pi = -(1 / 10 ^ 16) := by ring
      rw [this, abs_neg, abs_of_pos (by positivity)]
    · rw [key h h2, sub_self, abs_zero]; positivity

theorem abs_natAbs_le {m : ℤ} {n : ℕ} (h : |m| ≤ n) : m.natAbs ≤ n := by rw [Int.abs_eq_natAbs] at h; exact_mod_cast h

theorem natAbs_abs_le {m : ℤ} {n : ℕ} (h : m.natAbs ≤ n) : |m| ≤ n := by rw [Int.abs_eq_natAbs]; exact_mod_cast h

/-- The first degrees used by the code for a ring. -/
noncomputable def codeFirst (ovf : Res ℤ) (lmax : ℕ) (eps theta : ℝ) (m' m : ℤ) : ℕ :=
  kfirst ovf lmax [Tod.foldGt theta] eps m'.natAbs m.natAbs 0

theorem codeFirst_ok {ovf : Res ℤ} {v : ℤ} (hovf : ovf = ok v) {lmax mbeam : ℕ} (h0 : 0 < lmax) (hL : lmax < 46341)
    (hn : mbeam ≤ lmax) (eps theta : ℝ) : FirstDegOK (codeFirst ovf lmax eps theta) lmax mbeam eps (evalTheta theta) := by
  have K := kfirst_ok hovf (npsi := mbeam + 1) h0 hL (by omega) [Tod.foldGt theta] eps
  have hlat : 0 < [Tod.foldGt theta].length := by simp
  refine ⟨fun m' m h1 h2 => ?_, fun m' m h1 h2 => ?_, fun m' m h1 h2 l g1 g2 g3 g4 => ?_⟩
  · exact K.lo m m'.natAbs 0 h2 (by have := abs_natAbs_le h1; omega) hlat
  · exact K.hi m m'.natAbs 0 h2 (by have := abs_natAbs_le h1; omega) hlat
  · have hd := K.dropped m m'.natAbs 0 h2 (by have := abs_natAbs_le h1; omega) hlat l g1 g2 g4 g3
    have hget : [Tod.foldGt theta].getD 0 0 = Tod.foldGt theta := rfl
    rw [hget] at hd
    set x := genAngle (Tod.foldGt theta)
    have hsq : ∀ n : ℕ, |(-1 : ℝ) ^ n| = 1 := by intro n; rw [abs_pow]; simp
    have a' : |m'| ≤ (l : ℤ) := natAbs_abs_le g1
    have an' : |-m'| ≤ (l : ℤ) := by rw [abs_neg]; exact a'
    have a : |m| ≤ (l : ℤ) := natAbs_abs_le g2
    have an : |-m| ≤ (l : ℤ) := by rw [abs_neg]; exact a
    -- at the ring's colatitude, both signs of the beam order
    have hx : |wignerD l m' m x| ≤ tau lmax eps ∨ |wignerD l m' (-m) x| ≤ tau lmax eps := by
      rcases (show m' = m'.natAbs ∨ m' = -(m'.natAbs : ℤ) by omega) with e | e
      · rw [e]; exact hd
      · have e2 : (m'.natAbs : ℤ) = -m' := by omega
        rw [e2] at hd
        have p1 := wignerD_neg_neg l (m' := m') (m := -m) a' an x
        have p2 := wignerD_neg_neg l (m' := m') (m := m) a' a x
        rw [neg_neg] at p1
        rw [p1, p2, abs_mul, abs_mul, hsq, hsq, one_mul, one_mul] at hd
        exact hd.symm
    unfold evalTheta angleOf
    split
    · rw [wignerD_pi_sub l a' a, wignerD_pi_sub l a' an, abs_mul, abs_mul, hsq, one_mul, one_mul, neg_neg]
      exact hx.symm
    · exact hx

theorem psi_pair (z : ℂ) (k : ℕ) (psi : ℝ) :
    2 * ((if k = 0 then 1 / 2 else Real.cos (k * (psi + Real.pi / 2))) * (Complex.exp (Complex.I * (Real.pi / 2) * k) * z).re
      - (if k = 0 then 0 else Real.sin (k * (psi + Real.pi / 2))) * (Complex.exp (Complex.I * (Real.pi / 2) * k) * z).im) =
    (if k = 0 then 1 else 2) * ((-1) ^ k * Complex.exp (Complex.I * k * psi) * z).re := by
  by_cases hk : k = 0
  · subst hk; simp
  · rw [if_neg hk, if_neg hk, if_neg hk]
    have e1 : (-1 : ℂ) ^ k * Complex.exp (Complex.I * k * psi) * z =
        Complex.exp ((k * (psi + Real.pi / 2) : ℝ) * Complex.I) * (Complex.exp (Complex.I * (Real.pi / 2) * k) * z) := by
      rw [← mul_assoc, ← Complex.exp_add]
      congr 1
      have : (-1 : ℂ) ^ k = Complex.exp (Complex.I * Real.pi * k) := by
        rw [← Complex.exp_pi_mul_I, ← Complex.exp_nat_mul]; congr 1; ring
      rw [this, ← Complex.exp_add]
      congr 1
      push_cast; ring
    rw [e1]
    generalize Complex.exp (Complex.I * (Real.pi / 2) * k) * z = w
    rw [Complex.mul_re, Complex.exp_ofReal_mul_I_re, Complex.exp_ofReal_mul_I_im]

/-- Longitude of the node and of the ring sample differ by full turns. -/
theorem exp_nodePhi (c : Tod.Cfg) (p m : ℤ) :
    Complex.exp (Complex.I * m * phiK c.lmax (p % (c.nphi : ℤ)).toNat) = Complex.exp (Complex.I * m * Tod.nodePhi c p) := by
  have hn : (0 : ℤ) < c.nphi := by unfold Tod.Cfg.nphi; positivity
  have hp : p = c.nphi * (p / c.nphi) + p % c.nphi := (Int.mul_ediv_add_emod p c.nphi).symm
  have h0 := Int.emod_nonneg p hn.ne'
  set q := p % (c.nphi : ℤ) with hq
  set t := p / (c.nphi : ℤ) with ht
  have hreal : Tod.nodePhi c p = phiK c.lmax q.toNat + 2 * Real.pi * t := by
    unfold Tod.nodePhi phiK
    have hqn : ((q.toNat : ℕ) : ℝ) = (q : ℝ) := by
      have : ((q.toNat : ℕ) : ℤ) = q := Int.toNat_of_nonneg h0
      exact_mod_cast congrArg (fun z : ℤ => (z : ℝ)) this
    rw [hqn]
    have hpr : (p : ℝ) = (2 * c.lmax + 1) * t + q := by
      rw [show (p : ℝ) = ((c.nphi * t + q : ℤ) : ℝ) by rw [← hp]]
      unfold Tod.Cfg.nphi; push_cast; ring
    rw [hpr]
    have h : (2 * (c.lmax : ℝ) + 1) ≠ 0 := by positivity
    field_simp
    ring
  rw [hreal]
  have : Complex.I * m * ((phiK c.lmax q.toNat + 2 * Real.pi * t : ℝ) : ℂ) =
      Complex.I * m * phiK c.lmax q.toNat + ((m * t : ℤ) : ℂ) * (2 * Real.pi * Complex.I) := by push_cast; ring
  rw [this, Complex.exp_add, Complex.exp_int_mul_two_pi_mul_I, mul_one]

/-- The ring data of the environment are those computed from the expansions by the kernel and the synthesis. -/
def RingsFrom (e : Tod.Env ℝ) (ovf : Res ℤ) (o : Orders) (fft : List ℂ → List ℂ) (pol : Bool) (s b : Exps) (eps : ℝ) : Prop :=
  ∀ south i, e.ring south i = ringOf ovf o fft pol s b e.cfg eps south (Tod.ringTheta e.cfg i)

/-- The signal on a node before any assumption on the expansions. -/
theorem node_re {ovf : Res ℤ} {v : ℤ} (hovf : ovf = ok v) {pol : Bool} {s b : Exps} {e : Tod.Env ℝ}
    (h : KernelOK pol s b e.cfg.lmax e.cfg.npsi) {o : Orders} (ho : o.OK e.cfg.lmax e.cfg.npsi) {fft : List ℂ → List ℂ}
    (hf : IsBackward fft e.cfg.nphi) {eps : ℝ} (hr : RingsFrom e ovf o fft pol s b eps) (hord : e.cfg.order ≤ e.cfg.nphi)
    {j : ℕ} (hj : j ≤ e.cfg.lmax + 1) (p : ℤ) (psi : ℝ) :
    Tod.sampleSpec e (Tod.nodePhi e.cfg p) (Tod.nodeTheta e.cfg j) psi =
      ok (∑ k ∈ range e.cfg.npsi, (if k = 0 then 1 else 2) *
        (∑ m ∈ Icc (-(e.cfg.lmax : ℤ)) e.cfg.lmax,
          ∑ l ∈ Ico (codeFirst ovf e.cfg.lmax eps (Tod.nodeTheta e.cfg j) k m) (e.cfg.lmax + 1),
            convTerm pol s b l k m (evalTheta (Tod.nodeTheta e.cfg j)) (Tod.nodePhi e.cfg p) psi).re) := by
  have hspec := fun south i => ringOf_spec hovf h ho hf eps south (Tod.ringTheta e.cfg i)
  have hlen : ∀ hh i, (e.ring hh i).length = e.cfg.bufsize := by
    intro hh i; rw [hr hh i]; exact (hspec hh i).1
  obtain ⟨i, hi, hs⟩ := Tod.sampleSpec_node hlen hord hj p psi
  rw [hs]
  congr 1
  unfold Tod.psiSum
  rw [Finset.mul_sum]
  apply Finset.sum_congr rfl
  intro k hk
  rw [mem_range] at hk
  have hn : (0 : ℤ) < e.cfg.nphi := by unfold Tod.Cfg.nphi; positivity
  have hp : (p % (e.cfg.nphi : ℤ)).toNat < e.cfg.nphi := by
    have := Int.emod_lt_of_pos p hn
    have := Int.emod_nonneg p hn.ne'
    omega
  set q := (p % (e.cfg.nphi : ℤ)).toNat with hq
  rw [hr, (((hspec _ i).2) q k hp hk).1, (((hspec _ i).2) q k hp hk).2]
  unfold ringVal
  rw [psi_pair]
  congr 2
  rw [hi]
  show _ * _ * _ = _
  rw [Finset.mul_sum]
  apply Finset.sum_congr rfl
  intro m _
  rw [Finset.sum_mul, Finset.mul_sum]
  have hF : codeFirst ovf e.cfg.lmax eps (Tod.nodeTheta e.cfg j) k m =
    kfirst ovf e.cfg.lmax [Tod.foldGt (Tod.nodeTheta e.cfg j)] eps k m.natAbs 0 := rfl
  rw [hF]
  apply Finset.sum_congr rfl
  intro l _
  unfold convTerm kterm
  rw [show angleOf (decide (Real.pi / 2 ≤ Tod.nodeTheta e.cfg j)) (Tod.foldGt (Tod.nodeTheta e.cfg j)) =
    evalTheta (Tod.nodeTheta e.cfg j) from rfl, exp_nodePhi, Int.natAbs_natCast, Int.cast_natCast]
  have hsq : ((-1 : ℂ) ^ k) * (-1) ^ k = 1 := by rw [← mul_pow]; norm_num
  rw [pow_add]
  linear_combination ((-1 : ℂ) ^ m.natAbs * (wignerD l k m (evalTheta (Tod.nodeTheta e.cfg j)) : ℂ) * skyBeam pol s b l m k *
    Complex.exp (Complex.I * m * Tod.nodePhi e.cfg p) * Complex.exp (Complex.I * k * psi)) * hsq

/-- C19: for a sample on a grid node (colatitude `πj/(lmax+1)`, longitude `π/2 + 2πp/(2lmax+1)`, any `psi`) the
value is the total convolution in harmonic space, `Σ (-1)^m d^l_{m'm} s_{lm} conj(b_{lm'}) e^{imφ} e^{im'ψ}` over orders of
both signs, a real number; `ϑ` is the colatitude of the sample, moved by `1e-16` if the sample is at a pole, and only degrees
with a negligible d-function are left out. -/
theorem C19_node {ovf : Res ℤ} {v : ℤ} (hovf : ovf = ok v) {pol : Bool} {s b : Exps} {e : Tod.Env ℝ}
    (h : KernelOK pol s b e.cfg.lmax e.cfg.npsi) (hs : RealField pol e.cfg.lmax s) (hb : RealField pol e.cfg.lmax b)
    {o : Orders} (ho : o.OK e.cfg.lmax e.cfg.npsi) {fft : List ℂ → List ℂ}
    (hf : IsBackward fft e.cfg.nphi) {eps : ℝ} (hr : RingsFrom e ovf o fft pol s b eps) (hord : e.cfg.order ≤ e.cfg.nphi)
    {j : ℕ} (hj : j ≤ e.cfg.lmax + 1) (p : ℤ) (psi : ℝ) :
    ∃ (x : ℝ) (ϑ : ℝ) (F : ℤ → ℤ → ℕ), |ϑ - Tod.nodeTheta e.cfg j| ≤ 1 / 10 ^ 16 ∧
      (0 < j → j < e.cfg.lmax + 1 → ϑ = Tod.nodeTheta e.cfg j) ∧
      FirstDegOK F e.cfg.lmax e.cfg.mbeam eps ϑ ∧
      Tod.sampleSpec e (Tod.nodePhi e.cfg p) (Tod.nodeTheta e.cfg j) psi = ok x ∧
      (x : ℂ) = totalConv pol s b e.cfg.lmax e.cfg.mbeam F ϑ (Tod.nodePhi e.cfg p) psi := by
  obtain ⟨t0, t1⟩ := Tod.nodeTheta_range e.cfg hj
  obtain ⟨a1, a2⟩ := evalTheta_eq t0 t1
  have hmb : e.cfg.mbeam ≤ e.cfg.lmax := by have := h.npsi_le; unfold Tod.Cfg.npsi at this; omega
  have hF := codeFirst_ok hovf (mbeam := e.cfg.mbeam) h.pos h.lt hmb eps (Tod.nodeTheta e.cfg j)
  refine ⟨_, evalTheta (Tod.nodeTheta e.cfg j), codeFirst ovf e.cfg.lmax eps (Tod.nodeTheta e.cfg j), a2, ?_, hF,
    node_re hovf h ho hf hr hord hj p psi, ?_⟩
  · intro h1 h2
    have hpi := Real.pi_pos
    have hj0 : (0 : ℝ) < j := by exact_mod_cast h1
    have hj1 : (j : ℝ) < e.cfg.lmax + 1 := by exact_mod_cast h2
    apply a1
    · unfold Tod.nodeTheta; positivity
    · unfold Tod.nodeTheta; rw [div_lt_iff₀ (by positivity)]; nlinarith
  · unfold totalConv
    set F := codeFirst ovf e.cfg.lmax eps (Tod.nodeTheta e.cfg j) with hFd
    set ϑ := evalTheta (Tod.nodeTheta e.cfg j)
    set φ := Tod.nodePhi e.cfg p
    have := sum_conj_pairs (fun m' => ∑ m ∈ Icc (-(e.cfg.lmax : ℤ)) e.cfg.lmax, ∑ l ∈ Ico (F m' m) (e.cfg.lmax + 1),
      convTerm pol s b l m' m ϑ φ psi) e.cfg.mbeam ?_
    · rw [this]; rfl
    · intro k hk
      rw [← sum_neg_orders, map_sum]
      apply Finset.sum_congr rfl
      intro m hm
      rw [mem_Icc] at hm
      rw [map_sum]
      have hm' : |m| ≤ (e.cfg.lmax : ℤ) := abs_le.mpr hm
      have hFF : F (-k) (-m) = F k m := by
        rw [hFd]; unfold codeFirst; rw [Int.natAbs_neg, Int.natAbs_neg]
      rw [hFF]
      apply Finset.sum_congr rfl
      intro l hl
      rw [mem_Ico] at hl
      obtain ⟨l1, l2⟩ := hF.lo k m hk hm'
      exact convTerm_neg hs hb (by omega) (natAbs_abs_le (by omega)) (natAbs_abs_le (by omega)) ϑ φ psi

/-! ## complete sums -/

/-- The element of lowest degree is bounded below. -/
theorem start_lower {m1 m2 : ℤ} {M lmax : ℕ} (hM : max |m1| |m2| = M) (hl : M ≤ lmax) {θ : ℝ} (h0 : 0 ≤ θ) (h1 : θ ≤ Real.pi) :
    (min (Real.sin (θ / 2)) (Real.cos (θ / 2))) ^ (2 * lmax) ≤ |wignerD M m1 m2 θ| := by
  have hs : 0 ≤ Real.sin (θ / 2) := Real.sin_nonneg_of_nonneg_of_le_pi (by linarith) (by linarith)
  have hc : 0 ≤ Real.cos (θ / 2) := Real.cos_nonneg_of_mem_Icc ⟨by linarith, by linarith⟩
  set q := min (Real.sin (θ / 2)) (Real.cos (θ / 2)) with hq
  have hq0 : 0 ≤ q := le_min hs hc
  have hq1 : q ≤ 1 := le_trans (min_le_left _ _) (Real.sin_le_one _)
  have a1 : |m1| ≤ (M : ℤ) := by rw [← hM]; exact le_max_left _ _
  have a2 : |m2| ≤ (M : ℤ) := by rw [← hM]; exact le_max_right _ _
  rw [startVal hM]
  have hsgn : |(if (prepPows m1 m2 M).2.2 then (-1 : ℝ) else 1)| = 1 := by split <;> simp
  rw [abs_mul, hsgn, one_mul, abs_mul, abs_mul, abs_pow, abs_pow, abs_of_nonneg hs, abs_of_nonneg hc, abs_of_nonneg (Real.sqrt_nonneg _)]
  have hch : (1 : ℝ) ≤ √((2 * M).choose (M + min |m1| |m2|).toNat : ℝ) := by
    rw [Real.one_le_sqrt]
    have : 0 < (2 * M).choose (M + min |m1| |m2|).toNat := by
      apply Nat.choose_pos
      have := min_le_left |m1| |m2|
      omega
    exact_mod_cast this
  have hab : (prepPows m1 m2 M).1.toNat + (prepPows m1 m2 M).2.1.toNat = 2 * M := by
    obtain ⟨b1, b2⟩ := abs_le.mp a1
    obtain ⟨c1, c2⟩ := abs_le.mp a2
    unfold prepPows
    split_ifs <;> simp only <;> omega
  calc q ^ (2 * lmax) ≤ q ^ (2 * M) := pow_le_pow_of_le_one hq0 hq1 (by omega)
    _ = q ^ (prepPows m1 m2 M).1.toNat * q ^ (prepPows m1 m2 M).2.1.toNat := by rw [← pow_add, hab]
    _ ≤ Real.cos (θ / 2) ^ (prepPows m1 m2 M).1.toNat * Real.sin (θ / 2) ^ (prepPows m1 m2 M).2.1.toNat := by
      apply mul_le_mul
      · exact pow_le_pow_left₀ hq0 (min_le_right _ _) _
      · exact pow_le_pow_left₀ hq0 (min_le_left _ _) _
      · positivity
      · positivity
    _ ≤ _ := by
      have : 0 ≤ Real.cos (θ / 2) ^ (prepPows m1 m2 M).1.toNat * Real.sin (θ / 2) ^ (prepPows m1 m2 M).2.1.toNat := by positivity
      nlinarith

/-- C19 without dropped degrees: if the threshold is below `min(sin ϑ/2, cos ϑ/2)^(2 lmax)`, every degree contributes. -/
theorem C19_complete {ovf : Res ℤ} {v : ℤ} (hovf : ovf = ok v) {pol : Bool} {s b : Exps} {e : Tod.Env ℝ}
    (h : KernelOK pol s b e.cfg.lmax e.cfg.npsi) (hs : RealField pol e.cfg.lmax s) (hb : RealField pol e.cfg.lmax b)
    {o : Orders} (ho : o.OK e.cfg.lmax e.cfg.npsi) {fft : List ℂ → List ℂ}
    (hf : IsBackward fft e.cfg.nphi) {eps : ℝ} (hr : RingsFrom e ovf o fft pol s b eps) (hord : e.cfg.order ≤ e.cfg.nphi)
    {j : ℕ} (hj0 : 0 < j) (hj : j < e.cfg.lmax + 1) (p : ℤ) (psi : ℝ)
    (hbig : tau e.cfg.lmax eps <
      (min (Real.sin (Tod.nodeTheta e.cfg j / 2)) (Real.cos (Tod.nodeTheta e.cfg j / 2))) ^ (2 * e.cfg.lmax)) :
    ∃ x : ℝ, Tod.sampleSpec e (Tod.nodePhi e.cfg p) (Tod.nodeTheta e.cfg j) psi = ok x ∧
      (x : ℂ) = ∑ m' ∈ Icc (-(e.cfg.mbeam : ℤ)) e.cfg.mbeam, ∑ m ∈ Icc (-(e.cfg.lmax : ℤ)) e.cfg.lmax,
        ∑ l ∈ Icc (max m.natAbs m'.natAbs) e.cfg.lmax,
          (-1) ^ m.natAbs * (wignerD l m' m (Tod.nodeTheta e.cfg j) : ℂ) * skyBeam pol s b l m m' *
            Complex.exp (Complex.I * m * Tod.nodePhi e.cfg p) * Complex.exp (Complex.I * m' * psi) := by
  obtain ⟨x, ϑ, F, _, hϑ, hF, e1, e2⟩ := C19_node hovf h hs hb ho hf hr hord hj.le p psi
  rw [hϑ hj0 hj] at hF e2
  refine ⟨x, e1, ?_⟩
  rw [e2]
  unfold totalConv
  have hmb : e.cfg.mbeam ≤ e.cfg.lmax := by have := h.npsi_le; unfold Tod.Cfg.npsi at this; omega
  obtain ⟨t0, t1⟩ := Tod.nodeTheta_range e.cfg hj.le
  apply Finset.sum_congr rfl
  intro m' hm'
  apply Finset.sum_congr rfl
  intro m hm
  have am' : |m'| ≤ (e.cfg.mbeam : ℤ) := abs_le.mpr (mem_Icc.mp hm')
  have am : |m| ≤ (e.cfg.lmax : ℤ) := abs_le.mpr (mem_Icc.mp hm)
  obtain ⟨l1, l2⟩ := hF.lo m' m am' am
  have n1 := abs_natAbs_le am'
  have n2 := abs_natAbs_le am
  have hFe : F m' m = max m.natAbs m'.natAbs := by
    by_contra hne
    have hlt : max m.natAbs m'.natAbs < F m' m := lt_of_le_of_ne (max_le l2 l1) (Ne.symm hne)
    have hle : max m.natAbs m'.natAbs ≤ e.cfg.lmax := max_le n2 (by omega)
    have hM : ∀ k : ℤ, k.natAbs = m.natAbs → max |m'| |k| = ((max m.natAbs m'.natAbs : ℕ) : ℤ) := by
      intro k hk
      rw [Int.abs_eq_natAbs, Int.abs_eq_natAbs, hk, Nat.cast_max, max_comm]
    have s1 := start_lower (hM m rfl) hle t0 t1
    have s2 := start_lower (hM (-m) (Int.natAbs_neg m)) hle t0 t1
    rcases hF.dropped m' m am' am _ (le_max_right _ _) (le_max_left _ _) hle hlt with d | d
    · linarith
    · linarith
  rw [hFe]
  have : Ico (max m.natAbs m'.natAbs) (e.cfg.lmax + 1) = Icc (max m.natAbs m'.natAbs) e.cfg.lmax := by
    ext x; simp only [mem_Ico, mem_Icc]; omega
  rw [this]
  rfl

/-- C19 for the distributed program: in every job that returns, every sample that lies on a node has received the total
convolution (times the calibration factor), on every rank, whatever the distribution over ranks. -/
theorem C19_convolve {ovf : Res ℤ} {v : ℤ} (hovf : ovf = ok v) {pol : Bool} {s b : Exps} {e : Tod.Env ℝ} (he : Tod.EnvOK e)
    (h : KernelOK pol s b e.cfg.lmax e.cfg.npsi) (hs : RealField pol e.cfg.lmax s) (hb : RealField pol e.cfg.lmax b)
    {o : Orders} (ho : o.OK e.cfg.lmax e.cfg.npsi) {fft : List ℂ → List ℂ}
    (hf : IsBackward fft e.cfg.nphi) {eps : ℝ} (hr : RingsFrom e ovf o fft pol s b eps) (hord : e.cfg.order ≤ e.cfg.nphi)
    {n : ℕ} (hn : 1 ≤ n) {R out : ℕ → List (Tod.Row ℝ)} (hret : Spmd.Returns n (Tod.job e n R) out) :
    ∀ r < n, ∀ i (hi : i < (R r).length), ∀ (j : ℕ) (p : ℤ),
      j ≤ e.cfg.lmax + 1 → (R r)[i].theta = Tod.nodeTheta e.cfg j → (R r)[i].phi = Tod.nodePhi e.cfg p →
      ∃ (x ϑ : ℝ) (F : ℤ → ℤ → ℕ) (y : Tod.Row ℝ), (out r)[i]? = some y ∧
        y.sig = (if e.calibrate && !e.normalized then x * (2 / (1 + e.eps)) else x) ∧
        |ϑ - (R r)[i].theta| ≤ 1 / 10 ^ 16 ∧ (0 < j → j < e.cfg.lmax + 1 → ϑ = (R r)[i].theta) ∧
        FirstDegOK F e.cfg.lmax e.cfg.mbeam eps ϑ ∧
        (x : ℂ) = totalConv pol s b e.cfg.lmax e.cfg.mbeam F ϑ (R r)[i].phi (R r)[i].psi := by
  intro r hrn i hi j p hj ht hp
  obtain ⟨x, ϑ, F, a1, a2, a3, a4, a5⟩ := C19_node hovf h hs hb ho hf hr hord hj p (R r)[i].psi
  rw [← ht, ← hp] at a4
  rw [← ht] at a1 a2
  rw [← hp] at a5
  refine ⟨x, ϑ, F, ⟨(R r)[i].phi, (R r)[i].theta, (R r)[i].psi, Tod.calibSpec e x, ((Tod.samples r R).length + i : ℕ)⟩, ?_, ?_,
    a1, a2, a3, a5⟩
  · rw [Tod.returns_eq (Tod.valid_real he hord hn R) hret r hrn]
    simp [Tod.resultRows, hi, Tod.val_of_spec a4, Tod.samples_length, Tod.total]
  · show Tod.calibSpec e x = _
    unfold Tod.calibSpec
    simp only [Tod.RealArith.mul_def, Tod.RealArith.div_def, Tod.RealArith.ofInt_def, Tod.RealArith.add_def]
    push_cast
    rfl

/-! ## witness -/

/-- The defining sum as an `fft`. -/
noncomputable def dft (n : ℕ) (xs : List ℂ) : List ℂ :=
  (List.range n).map (fun k : ℕ => ∑ j ∈ range n, xs.getD j 0 * Complex.exp (2 * Real.pi * Complex.I * j * k / n))

theorem dft_backward (n : ℕ) : IsBackward (dft n) n := by
  intro xs _
  refine ⟨by simp [dft], fun k hk => ?_⟩
  unfold dft
  rw [List.getD_eq_getElem?_getD, List.getElem?_map, List.getElem?_range hk]; rfl

def wOrders : Orders := ⟨⟨fun _ => [2, 1, 0], fun _ m => m % 2⟩, [4, 3, 2, 1, 0], [0, 2, 1], [0, 1, 2, 3, 4], [0, 1, 2, 3, 4], [2, 1, 0], [0, 1, 2, 4, 3]⟩

noncomputable def wExps : Exps := ⟨wAlm, wAlm, wAlm⟩

noncomputable def wEnv : Tod.Env ℝ :=
  { Tod.demoEnv with
    cfg := ⟨2, 2, 1⟩
    kern := fun _ => kernelRings (ok 0) wOrders (dft 5) true wExps wExps ⟨2, 2, 1⟩ (1 / 10 ^ 30)
    ring := fun south i => ringOf (ok 0) wOrders (dft 5) true wExps wExps ⟨2, 2, 1⟩ (1 / 10 ^ 30) south (Tod.ringTheta ⟨2, 2, 1⟩ i) }

theorem wAlm_wf : wAlm.WF := by refine ⟨?_, ?_, ?_⟩ <;> simp [wAlm, Harm.numAlms]

theorem wKernelOK : KernelOK true wExps wExps 2 3 := by
  have hf : Fits 2 3 wAlm wAlm := ⟨wAlm_wf, by simp [wAlm], by simp [wAlm], wAlm_wf, by simp [wAlm], by simp [wAlm]⟩
  exact ⟨by norm_num, by norm_num, by norm_num, hf, fun _ => hf, fun _ => hf⟩

theorem wOrders_ok : wOrders.OK 2 3 where
  sc := fun _ => (by decide : [2, 1, 0].Perm (List.range (2 + 1)))
  A1 := by decide
  B1 := by decide
  C1 := by decide
  A2 := by decide
  B2 := by decide
  C2 := by decide

theorem wReal : RealField true 2 wExps := by
  have h : ∀ l ≤ 2, (coef wAlm l 0).im = 0 := by
    intro l hl
    interval_cases l <;> simp [coef, Harm.Alm.get, wAlm, Harm.index, Harm.indexL0, rd]
  exact ⟨h, fun _ l hl => ⟨h l hl, h l hl⟩⟩

theorem wEnv_ok : Tod.EnvOK wEnv where
  verb := Tod.demoEnv_ok.verb
  sort := Tod.demoEnv_ok.sort
  sched := Tod.demoEnv_ok.sched
  nan := Tod.demoEnv_ok.nan
  ring_len := fun h i => (ringOf_spec (c := ⟨2, 2, 1⟩) rfl wKernelOK wOrders_ok (dft_backward 5) _ h _).1
  kern := fun _ mine => kernelRings_eq (c := ⟨2, 2, 1⟩) rfl wKernelOK wOrders_ok wOrders_ok (dft_backward 5) mine _

/-- All hypotheses of `C19_complete` hold together: two schedules of threads, polarised expansions with `lmax = 2`, the node with
`j = 1` (colatitude 60 degrees), and the code's threshold. -/
example (p : ℤ) (psi : ℝ) : ∃ x : ℝ, Tod.sampleSpec wEnv (Tod.nodePhi wEnv.cfg p) (Tod.nodeTheta wEnv.cfg 1) psi = ok x ∧
      (x : ℂ) = ∑ m' ∈ Icc (-2 : ℤ) 2, ∑ m ∈ Icc (-2 : ℤ) 2,
        ∑ l ∈ Icc (max m.natAbs m'.natAbs) 2,
          (-1) ^ m.natAbs * (wignerD l m' m (Tod.nodeTheta wEnv.cfg 1) : ℂ) * skyBeam true wExps wExps l m m' *
            Complex.exp (Complex.I * m * Tod.nodePhi wEnv.cfg p) * Complex.exp (Complex.I * m' * psi) := by
  refine C19_complete (e := wEnv) (ovf := ok 0) rfl wKernelOK wReal wReal wOrders_ok (fft := dft 5) (dft_backward 5)
    (eps := 1 / 10 ^ 30) (fun _ _ => rfl) (by decide) (by decide) (by decide) p psi ?_
  have hθ : Tod.nodeTheta wEnv.cfg 1 / 2 = Real.pi / 6 := by
    unfold Tod.nodeTheta
    show Real.pi * ((1 : ℕ) : ℝ) / (((2 : ℕ) : ℝ) + 1) / 2 = _
    push_cast; ring
  rw [hθ, Real.sin_pi_div_six, Real.cos_pi_div_six]
  have h3 : (1 : ℝ) ≤ √3 := by rw [Real.one_le_sqrt]; norm_num
  rw [min_eq_left (by linarith)]
  show tau 2 _ < (1 / 2) ^ (2 * 2)
  unfold tau
  apply max_lt
  · norm_num
  · have h1 : (2 : ℝ) ^ (10 : ℕ) ≤ 2 ^ (360 : ℕ) := pow_le_pow_right₀ (by norm_num) (by norm_num)
    have h2 : ((2 : ℝ) ^ (-360 : ℤ)) = ((2 : ℝ) ^ (360 : ℕ))⁻¹ := by rw [zpow_neg]; rfl
    have h4 : ((2 : ℝ) ^ (360 : ℕ))⁻¹ ≤ ((2 : ℝ) ^ (10 : ℕ))⁻¹ := by gcongr
    rw [h2]
    norm_num at h4 ⊢
    linarith

end Verif.Num
