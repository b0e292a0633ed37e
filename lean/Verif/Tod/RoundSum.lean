import Verif.Tod.Round
import Mathlib.Analysis.SpecialFunctions.Trigonometric.Bounds
import Mathlib.Analysis.Complex.Norm

/-!
# C58: rounding errors of the Fourier sum in `psi` and of the weighted sum
-/

namespace Verif.Tod
open Verif Res Finset FP

variable {rnd : ℝ → ℝ} {u : ℝ}

/-! ## powers of a rotation -/

/-- One rounded complex multiplication, as in src/conviqt_math.cpp:1417-1418. -/
theorem cmul_err (hr : RelErr rnd u) (hu : u ≤ 1 / 4) (a b c s : ℝ) :
    ‖(⟨rnd (rnd (a * c) - rnd (b * s)), rnd (rnd (b * c) + rnd (a * s))⟩ : ℂ) - ⟨a, b⟩ * ⟨c, s⟩‖ ≤
      4 * u * (‖(⟨a, b⟩ : ℂ)‖ * ‖(⟨c, s⟩ : ℂ)‖) := by
  have h0 := hr.nonneg
  set Z := ‖(⟨a, b⟩ : ℂ)‖ * ‖(⟨c, s⟩ : ℂ)‖ with hZ
  have hZ0 : 0 ≤ Z := by positivity
  have hZ2 : Z ^ 2 = (a * a + b * b) * (c * c + s * s) := by
    rw [hZ, mul_pow, Complex.sq_norm, Complex.sq_norm, Complex.normSq_mk, Complex.normSq_mk]
  have le_of_sq : ∀ p : ℝ, p ^ 2 ≤ Z ^ 2 → p ≤ Z := fun p hp => le_of_abs_le (abs_le_of_sq_le_sq hp hZ0 |> fun h => by
    rw [abs_le]; exact ⟨(abs_le.mp (abs_le_of_sq_le_sq hp hZ0)).1, (abs_le.mp (abs_le_of_sq_le_sq hp hZ0)).2⟩)
  have hP : |a * c| + |b * s| ≤ Z := by
    apply le_of_sq
    rw [hZ2, abs_mul, abs_mul]
    have e1 := sq_abs a; have e2 := sq_abs b; have e3 := sq_abs c; have e4 := sq_abs s
    nlinarith [sq_nonneg (|a| * |s| - |b| * |c|)]
  have hQ : |b * c| + |a * s| ≤ Z := by
    apply le_of_sq
    rw [hZ2, abs_mul, abs_mul]
    have e1 := sq_abs a; have e2 := sq_abs b; have e3 := sq_abs c; have e4 := sq_abs s
    nlinarith [sq_nonneg (|b| * |s| - |a| * |c|)]
  have hR : |a * c - b * s| + |b * c + a * s| ≤ 3 / 2 * Z := by
    have e1 := sq_abs (a * c - b * s)
    have e2 := sq_abs (b * c + a * s)
    have : (|a * c - b * s| + |b * c + a * s|) ^ 2 ≤ (3 / 2 * Z) ^ 2 := by
      rw [mul_pow, hZ2]
      nlinarith [sq_nonneg (|a * c - b * s| - |b * c + a * s|)]
    exact (le_abs_self _).trans (abs_le_of_sq_le_sq this (by positivity))
  have n1 := ((Near.exact (a * c)).round hr).sub ((Near.exact (b * s)).round hr)
  have n2 := ((Near.exact (b * c)).round hr).add ((Near.exact (a * s)).round hr)
  have key : ∀ {v w V W : ℝ}, Near v w (V * (1 + u)) V → V ≤ Z → |rnd v - w| ≤ u * |w| + u * (1 + u) * Z := by
    intro v w V W h hV
    have h1 := hr.rel v
    have h2 := h.2
    have h3 : |v| ≤ |w| + |v - w| := by
      have := abs_add_le w (v - w); rwa [add_sub_cancel] at this
    have h4 := abs_add_le (rnd v - v) (v - w)
    rw [sub_add_sub_cancel] at h4
    have h5 : u * |v| ≤ u * (|w| + u * Z) := by
      apply mul_le_mul_of_nonneg_left _ h0
      have : V * u ≤ Z * u := mul_le_mul_of_nonneg_right hV h0
      nlinarith
    have : V * u ≤ Z * u := mul_le_mul_of_nonneg_right hV h0
    nlinarith
  have n1' : Near (rnd (a * c) - rnd (b * s)) (a * c - b * s) ((|a * c| + |b * s|) * (1 + u)) (|a * c| + |b * s|) :=
    n1.mono (le_of_eq (by ring))
  have n2' : Near (rnd (b * c) + rnd (a * s)) (b * c + a * s) ((|b * c| + |a * s|) * (1 + u)) (|b * c| + |a * s|) :=
    n2.mono (le_of_eq (by ring))
  have k1 := key (W := 0) n1' hP
  have k2 := key (W := 0) n2' hQ
  refine (Complex.norm_le_abs_re_add_abs_im _).trans ?_
  simp only [Complex.sub_re, Complex.sub_im, Complex.mul_re, Complex.mul_im]
  have e2 : a * s + b * c = b * c + a * s := by ring
  rw [e2]
  have h6 : u * (|a * c - b * s| + |b * c + a * s|) ≤ u * (3 / 2 * Z) := mul_le_mul_of_nonneg_left hR h0
  have h7 : u * u * Z ≤ u * (1 / 4) * Z := mul_le_mul_of_nonneg_right (mul_le_mul_of_nonneg_left hu h0) hZ0
  nlinarith

/-- Growth per step of the error of `cos(k ω)`, `sin(k ω)`. -/
noncomputable def angGrow (u psi : ℝ) : ℝ := (1 + 4 * u) * (1 + u * (2 * |psi| + 10))

theorem angGrow_ge (h : 0 ≤ u) (psi : ℝ) : 1 ≤ angGrow u psi := by
  unfold angGrow
  have h1 : 0 ≤ u * (2 * |psi| + 10) := by positivity
  nlinarith

/-- `cos ω`, `sin ω` as computed. -/
theorem rot_err (hr : RelErr rnd u) (hu : u ≤ 1 / 4) (psi : ℝ) :
    ‖(⟨rnd (Real.cos (rnd (psi + rnd (Real.pi / 2)))), rnd (Real.sin (rnd (psi + rnd (Real.pi / 2))))⟩ : ℂ) -
      ⟨Real.cos (psi + Real.pi / 2), Real.sin (psi + Real.pi / 2)⟩‖ ≤ u * (2 * |psi| + 10) := by
  have h0 := hr.nonneg
  set w' := rnd (psi + rnd (Real.pi / 2)) with hw
  have hpi := Real.pi_lt_d2
  have hpi0 := Real.pi_pos
  have h1 : |w' - (psi + Real.pi / 2)| ≤ u * (|psi| + 4) - u * u * 0 := by
    have n := ((Near.exact psi).add ((Near.exact (Real.pi / 2)).round hr)).round hr
    have h2 := n.2
    rw [abs_of_pos (show 0 < Real.pi / 2 by positivity)] at h2
    have h3 : u * u ≤ u * (1 / 4) := mul_le_mul_of_nonneg_left hu h0
    have h4 : u * Real.pi ≤ u * 3.15 := mul_le_mul_of_nonneg_left hpi.le h0
    have h5 : u * u * Real.pi ≤ u * (1 / 4) * 3.15 := mul_le_mul h3 hpi.le hpi0.le (by positivity)
    rw [← hw] at h2
    nlinarith
  have c1 := hr.rel (Real.cos w')
  have s1 := hr.rel (Real.sin w')
  have c2 : u * |Real.cos w'| ≤ u * 1 := mul_le_mul_of_nonneg_left (Real.abs_cos_le_one _) h0
  have s2 : u * |Real.sin w'| ≤ u * 1 := mul_le_mul_of_nonneg_left (Real.abs_sin_le_one _) h0
  have c3 := Real.abs_cos_sub_cos_le w' (psi + Real.pi / 2)
  have s3 := Real.abs_sin_sub_sin_le w' (psi + Real.pi / 2)
  refine (Complex.norm_le_abs_re_add_abs_im _).trans ?_
  simp only [Complex.sub_re, Complex.sub_im]
  have c4 := abs_add_le (rnd (Real.cos w') - Real.cos w') (Real.cos w' - Real.cos (psi + Real.pi / 2))
  have s4 := abs_add_le (rnd (Real.sin w') - Real.sin w') (Real.sin w' - Real.sin (psi + Real.pi / 2))
  rw [sub_add_sub_cancel] at c4 s4
  linarith

/-- The `k`-fold angle addition of the code. -/
theorem angIter_err (hr : RelErr rnd u) (hu : u ≤ 1 / 4) (hone : rnd 1 = 1) (psi : FP rnd) (k : ℕ) :
    let w := Arith.add psi (Arith.halfpi : FP rnd)
    let p := angIter (Arith.cos w) (Arith.sin w) k
    ‖(⟨p.1.val, p.2.val⟩ : ℂ) - ⟨Real.cos (k * (psi.val + Real.pi / 2)), Real.sin (k * (psi.val + Real.pi / 2))⟩‖ ≤
      angGrow u psi.val ^ k - 1 := by
  intro w p
  have h0 := hr.nonneg
  have hg := angGrow_ge h0 psi.val
  set W := psi.val + Real.pi / 2 with hW
  set β := u * (2 * |psi.val| + 10) with hβ
  have hβ0 : 0 ≤ β := by positivity
  have hrot := rot_err hr hu psi.val
  rw [← hW, ← hβ] at hrot
  have unit : ∀ t : ℝ, ‖(⟨Real.cos t, Real.sin t⟩ : ℂ)‖ = 1 := by
    intro t
    have : ‖(⟨Real.cos t, Real.sin t⟩ : ℂ)‖ ^ 2 = 1 := by
      rw [Complex.sq_norm, Complex.normSq_mk]
      have := Real.sin_sq_add_cos_sq t
      nlinarith
    have h1 := norm_nonneg (⟨Real.cos t, Real.sin t⟩ : ℂ)
    nlinarith
  set ws : ℂ := ⟨rnd (Real.cos (rnd (psi.val + rnd (Real.pi / 2)))), rnd (Real.sin (rnd (psi.val + rnd (Real.pi / 2))))⟩ with hws
  have hwsn : ‖ws‖ ≤ 1 + β := by
    have := norm_add_le (ws - ⟨Real.cos W, Real.sin W⟩) (⟨Real.cos W, Real.sin W⟩ : ℂ)
    rw [sub_add_cancel, unit] at this
    linarith
  have key : ∀ k : ℕ, ‖(⟨(angIter (Arith.cos w) (Arith.sin w) k).1.val, (angIter (Arith.cos w) (Arith.sin w) k).2.val⟩ : ℂ) -
      ⟨Real.cos (k * W), Real.sin (k * W)⟩‖ ≤ angGrow u psi.val ^ k - 1 := by
    intro k
    induction k with
    | zero =>
      have e : (⟨(angIter (Arith.cos w) (Arith.sin w) 0).1.val, (angIter (Arith.cos w) (Arith.sin w) 0).2.val⟩ : ℂ) -
          ⟨Real.cos ((0 : ℕ) * W), Real.sin ((0 : ℕ) * W)⟩ = 0 := by
        apply Complex.ext
        · show rnd ((1 : ℤ) : ℝ) - Real.cos ((0 : ℕ) * W) = 0
          simp [hone]
        · show rnd ((0 : ℤ) : ℝ) - Real.sin ((0 : ℕ) * W) = 0
          simp [hr.zero]
      rw [e]; simp
    | succ k ih =>
      set z : ℂ := ⟨(angIter (Arith.cos w) (Arith.sin w) k).1.val, (angIter (Arith.cos w) (Arith.sin w) k).2.val⟩ with hz
      set t : ℂ := ⟨Real.cos (k * W), Real.sin (k * W)⟩ with ht
      have hzn : ‖z‖ ≤ angGrow u psi.val ^ k := by
        have := norm_add_le (z - t) t
        rw [sub_add_cancel, ht, unit, ← ht] at this
        linarith
      have hm := cmul_err hr hu (angIter (Arith.cos w) (Arith.sin w) k).1.val (angIter (Arith.cos w) (Arith.sin w) k).2.val
        (rnd (Real.cos (rnd (psi.val + rnd (Real.pi / 2))))) (rnd (Real.sin (rnd (psi.val + rnd (Real.pi / 2)))))
      rw [← hz, ← hws] at hm
      have e1 : (⟨Real.cos ((k + 1 : ℕ) * W), Real.sin ((k + 1 : ℕ) * W)⟩ : ℂ) = t * ⟨Real.cos W, Real.sin W⟩ := by
        have : ((k + 1 : ℕ) : ℝ) * W = k * W + W := by push_cast; ring
        rw [this, ht]
        apply Complex.ext
        · simp only [Complex.mul_re]; exact Real.cos_add _ _
        · simp only [Complex.mul_im]; rw [Real.sin_add (k * W) W]; ring
      rw [e1]
      have e2 : (⟨(angIter (Arith.cos w) (Arith.sin w) (k + 1)).1.val, (angIter (Arith.cos w) (Arith.sin w) (k + 1)).2.val⟩ : ℂ) =
          ⟨rnd (rnd ((angIter (Arith.cos w) (Arith.sin w) k).1.val * rnd (Real.cos (rnd (psi.val + rnd (Real.pi / 2))))) -
              rnd ((angIter (Arith.cos w) (Arith.sin w) k).2.val * rnd (Real.sin (rnd (psi.val + rnd (Real.pi / 2)))))),
            rnd (rnd ((angIter (Arith.cos w) (Arith.sin w) k).2.val * rnd (Real.cos (rnd (psi.val + rnd (Real.pi / 2))))) +
              rnd ((angIter (Arith.cos w) (Arith.sin w) k).1.val * rnd (Real.sin (rnd (psi.val + rnd (Real.pi / 2))))))⟩ := rfl
      rw [e2]
      have t1 := norm_add_le ((⟨rnd (rnd ((angIter (Arith.cos w) (Arith.sin w) k).1.val * rnd (Real.cos (rnd (psi.val + rnd (Real.pi / 2))))) -
              rnd ((angIter (Arith.cos w) (Arith.sin w) k).2.val * rnd (Real.sin (rnd (psi.val + rnd (Real.pi / 2)))))),
            rnd (rnd ((angIter (Arith.cos w) (Arith.sin w) k).2.val * rnd (Real.cos (rnd (psi.val + rnd (Real.pi / 2))))) +
              rnd ((angIter (Arith.cos w) (Arith.sin w) k).1.val * rnd (Real.sin (rnd (psi.val + rnd (Real.pi / 2))))))⟩ : ℂ) - z * ws)
        ((z - t) * ws + t * (ws - ⟨Real.cos W, Real.sin W⟩))
      rw [show ∀ y : ℂ, y - z * ws + ((z - t) * ws + t * (ws - ⟨Real.cos W, Real.sin W⟩)) = y - t * ⟨Real.cos W, Real.sin W⟩ from
        fun y => by ring] at t1
      have t2 := norm_add_le ((z - t) * ws) (t * (ws - ⟨Real.cos W, Real.sin W⟩))
      rw [norm_mul, norm_mul, ht, unit, ← ht, one_mul] at t2
      have t3 : ‖z - t‖ * ‖ws‖ ≤ (angGrow u psi.val ^ k - 1) * (1 + β) :=
        mul_le_mul ih hwsn (norm_nonneg _) (by have := one_le_pow₀ hg (n := k); linarith)
      have t4 : ‖z‖ * ‖ws‖ ≤ angGrow u psi.val ^ k * (1 + β) :=
        mul_le_mul hzn hwsn (norm_nonneg _) (by positivity)
      have t5 : 4 * u * (‖z‖ * ‖ws‖) ≤ 4 * u * (angGrow u psi.val ^ k * (1 + β)) := mul_le_mul_of_nonneg_left t4 (by linarith)
      have e3 : angGrow u psi.val ^ (k + 1) = angGrow u psi.val ^ k * ((1 + 4 * u) * (1 + β)) := by rw [pow_succ]; rfl
      rw [e3]
      nlinarith
  exact key k

/-! ## the Fourier sum in `psi` -/

/-- Sum of the magnitudes of the numbers of a ring at one longitude. -/
noncomputable def ringAbs (c : Cfg) (ring : List ℝ) (p : ℕ) : ℝ :=
  ∑ k ∈ range c.npsi, (|ring.getD (2 * (p * c.npsi + k)) 0| + |ring.getD (2 * (p * c.npsi + k) + 1) 0|)

theorem ringAbs_nonneg (c : Cfg) (ring : List ℝ) (p : ℕ) : 0 ≤ ringAbs c ring p := by unfold ringAbs; positivity

theorem getD_val {ring : List (FP rnd)} {i : ℕ} (h : i < ring.length) : (ring.map FP.val).getD i 0 = (ring[i]).val := by
  simp [List.getD, h]

theorem near_ringDot (hr : RelErr rnd u) (hu : u ≤ 1 / 4) (hone : rnd 1 = 1) (c : Cfg) {ring : List (FP rnd)} (hl : ring.length = c.bufsize)
    (psi : FP rnd) {p : ℤ} (h0 : 0 ≤ p) (h1 : p < c.nphi) :
    ∃ r, ringDot c ring (angles c.npsi psi) p = ok r ∧
      Near r.val (psiSum c (ring.map FP.val) psi.val p.toNat)
        ((1 + u) ^ (c.npsi + 2) * angGrow u psi.val ^ c.mbeam * ringAbs c (ring.map FP.val) p.toNat) (ringAbs c (ring.map FP.val) p.toNat) := by
  have hu0 := hr.nonneg
  have hg := angGrow_ge hu0 psi.val
  have hidx : ∀ k < c.npsi, 2 * (p.toNat * c.npsi + k) + 1 < ring.length := by
    intro k hk
    rw [hl]; unfold Cfg.bufsize
    have : (p.toNat + 1) * c.npsi ≤ c.nphi * c.npsi := Nat.mul_le_mul_right _ (by omega)
    rw [Nat.add_mul, Nat.one_mul] at this
    omega
  let A : ℕ → FP rnd × FP rnd := fun k => if k = 0 then (Arith.half, Arith.ofInt 0) else
    angIter (Arith.cos (Arith.add psi (Arith.halfpi : FP rnd))) (Arith.sin (Arith.add psi (Arith.halfpi : FP rnd))) k
  let D : FP rnd := ⟨0⟩
  let re : ℕ → FP rnd := fun k => ring.getD (2 * (p.toNat * c.npsi + k)) D
  let im : ℕ → FP rnd := fun k => ring.getD (2 * (p.toNat * c.npsi + k) + 1) D
  let R : ℕ → ℝ := fun k => (ring.map FP.val).getD (2 * (p.toNat * c.npsi + k)) 0
  let I : ℕ → ℝ := fun k => (ring.map FP.val).getD (2 * (p.toNat * c.npsi + k) + 1) 0
  have hre : ∀ k < c.npsi, (re k).val = R k := by
    intro k hk
    show (ring.getD _ D).val = (ring.map FP.val).getD _ 0
    rw [getD_val (by have := hidx k hk; omega)]
    simp [List.getD, show 2 * (p.toNat * c.npsi + k) < ring.length by have := hidx k hk; omega]
  have him : ∀ k < c.npsi, (im k).val = I k := by
    intro k hk
    show (ring.getD _ D).val = (ring.map FP.val).getD _ 0
    rw [getD_val (hidx k hk)]
    simp [List.getD, hidx k hk]
  have hstep : ∀ k < c.npsi, ∀ acc : FP rnd, (do
      let a ← rd (angles c.npsi psi) (k : ℤ)
      let re ← rd ring (2 * (p * (c.npsi : ℤ) + k))
      let im ← rd ring (2 * (p * (c.npsi : ℤ) + k) + 1)
      ok (Arith.add acc (Arith.sub (Arith.mul a.1 re) (Arith.mul a.2 im)))) =
      ok (Arith.add acc (Arith.sub (Arith.mul (A k).1 (re k)) (Arith.mul (A k).2 (im k)))) := by
    intro k hk acc
    have hpn : p = (p.toNat : ℤ) := by omega
    have ha : rd (angles c.npsi psi) (k : ℤ) = ok (A k) := by
      unfold angles
      rw [rd_nat (by simpa using hk)]
      simp only [List.getElem_map, List.getElem_range]
      rfl
    rw [ha]
    simp only [ok_bind]
    rw [show (2 * (p * (c.npsi : ℤ) + (k : ℤ))) = ((2 * (p.toNat * c.npsi + k) : ℕ) : ℤ) by
        conv_lhs => rw [hpn]
        push_cast; ring]
    rw [rd_nat (by have := hidx k hk; omega)]
    simp only [ok_bind]
    rw [show (((2 * (p.toNat * c.npsi + k) : ℕ) : ℤ) + 1) = ((2 * (p.toNat * c.npsi + k) + 1 : ℕ) : ℤ) by push_cast; ring,
      rd_nat (hidx k hk)]
    simp only [ok_bind]
    have e1 : re k = ring[2 * (p.toNat * c.npsi + k)]'(by have := hidx k hk; omega) := by
      show ring.getD _ D = _
      simp [List.getD, show 2 * (p.toNat * c.npsi + k) < ring.length by have := hidx k hk; omega]
    have e2 : im k = ring[2 * (p.toNat * c.npsi + k) + 1]'(hidx k hk) := by
      show ring.getD _ D = _
      simp [List.getD, hidx k hk]
    rw [e1, e2]
  have hterm : ∀ k < c.npsi, Near (Arith.sub (Arith.mul (A k).1 (re k)) (Arith.mul (A k).2 (im k))).val
      ((if k = 0 then 1 / 2 else Real.cos (k * (psi.val + Real.pi / 2))) * R k
        - (if k = 0 then 0 else Real.sin (k * (psi.val + Real.pi / 2))) * I k)
      ((1 + u) ^ 2 * angGrow u psi.val ^ c.mbeam * (|R k| + |I k|)) (|R k| + |I k|) := by
    intro k hk
    have hpow : angGrow u psi.val ^ k ≤ angGrow u psi.val ^ c.mbeam := by
      have : k ≤ c.mbeam := by unfold Cfg.npsi at hk; omega
      exact pow_le_pow_right₀ hg this
    have nR := Near.exact (re k).val
    have nI := Near.exact (im k).val
    rw [hre k hk] at nR
    rw [him k hk] at nI
    simp only [sub_val, mul_val]
    rw [hre k hk, him k hk]
    by_cases hk0 : k = 0
    · have hA : A k = (Arith.half, Arith.ofInt 0) := if_pos hk0
      rw [if_pos hk0, if_pos hk0, hA]
      simp only [half_val, ofInt_val, Int.cast_zero, hr.zero]
      have n1 := (((Near.exact (1 / 2 : ℝ)).mul nR).round hr).sub (((Near.exact (0 : ℝ)).mul nI).round hr)
      refine (n1.round hr).mono2 ?_ ?_
      · simp only [abs_zero, zero_mul, add_zero]
        rw [abs_of_pos (show (0 : ℝ) < 1 / 2 by norm_num)]
        have := abs_nonneg (R k); have := abs_nonneg (I k); linarith
      · simp only [abs_zero, zero_mul, add_zero]
        rw [abs_of_pos (show (0 : ℝ) < 1 / 2 by norm_num)]
        have r0 := abs_nonneg (R k)
        have i0 := abs_nonneg (I k)
        have hG : 1 ≤ angGrow u psi.val ^ c.mbeam := one_le_pow₀ hg
        have h2 : (1 + u) ^ 2 ≤ (1 + u) ^ 2 * angGrow u psi.val ^ c.mbeam := le_mul_of_one_le_right (by positivity) hG
        have h3 : 1 ≤ (1 + u) ^ 2 := one_le_pow₀ (by linarith)
        have h4 : ((1 + u) ^ 2 - 1) * (1 / 2 * |R k|) ≤ ((1 + u) ^ 2 - 1) * (|R k| + |I k|) :=
          mul_le_mul_of_nonneg_left (by linarith) (by linarith)
        have h5 := mul_le_mul_of_nonneg_right h2 (add_nonneg r0 i0)
        nlinarith
    · have hA : A k = angIter (Arith.cos (Arith.add psi (Arith.halfpi : FP rnd))) (Arith.sin (Arith.add psi (Arith.halfpi : FP rnd))) k :=
        if_neg hk0
      have herr := angIter_err hr hu hone psi k
      simp only at herr
      rw [← hA] at herr
      rw [if_neg hk0, if_neg hk0]
      have nc : Near (A k).1.val (Real.cos (k * (psi.val + Real.pi / 2))) (angGrow u psi.val ^ k) 1 :=
        ⟨Real.abs_cos_le_one _, (by simpa using (Complex.abs_re_le_norm _).trans herr)⟩
      have ns : Near (A k).2.val (Real.sin (k * (psi.val + Real.pi / 2))) (angGrow u psi.val ^ k) 1 :=
        ⟨Real.abs_sin_le_one _, (by simpa using (Complex.abs_im_le_norm _).trans herr)⟩
      have n1 := ((((nc.mul nR).round hr).sub ((ns.mul nI).round hr)).round hr)
      rw [one_mul, one_mul] at n1
      refine n1.mono ?_
      have := mul_le_mul_of_nonneg_left (mul_le_mul_of_nonneg_right hpow (add_nonneg (abs_nonneg (R k)) (abs_nonneg (I k))))
        (show 0 ≤ (1 + u) ^ 2 by positivity)
      refine le_trans (le_of_eq ?_) (this.trans (le_of_eq ?_)) <;> ring
  obtain ⟨r, h2, h3⟩ := near_sum hr c.npsi (f := fun ipsi acc => do
    let a ← rd (angles c.npsi psi) (ipsi : ℤ)
    let re ← rd ring (2 * (p * (c.npsi : ℤ) + ipsi))
    let im ← rd ring (2 * (p * (c.npsi : ℤ) + ipsi) + 1)
    ok (Arith.add acc (Arith.sub (Arith.mul a.1 re) (Arith.mul a.2 im)))) hstep hterm
    (a := Arith.ofInt 0) (a0 := 0) (A0 := 0) (X0 := 0) (by
      simp only [ofInt_val, Int.cast_zero, hr.zero]; exact ⟨by simp, by simp⟩)
  refine ⟨r, h2, ?_⟩
  rw [zero_add, zero_add, zero_add, ← mul_sum] at h3
  refine (h3.mono (le_of_eq ?_))
  rw [pow_add]
  show (1 + u) ^ c.npsi * ((1 + u) ^ 2 * angGrow u psi.val ^ c.mbeam * ringAbs c (ring.map FP.val) p.toNat) = _
  ring

end Verif.Tod
