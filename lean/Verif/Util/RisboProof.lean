import Verif.Util.Risbo
import Mathlib.Data.List.Perm.Basic

/-!
# Risbo recursion (C47): proofs
-/

namespace Verif.Risbo

open Verif Res Verif.Num

/-- Row `k` holds the matrix of spin `j/2`. -/
def Row (q p : ℝ) (d : A2) (j k : ℕ) : Prop := ∀ i ≤ j, d.v k i = W q p j k i

theorem sqj (j : ℕ) : √(j : ℝ) * √(j : ℝ) = j := Real.mul_self_sqrt (by positivity)

theorem Row_congr {q p : ℝ} {d d' : A2} {j k : ℕ} (h : Row q p d j k) (e : ∀ i, d'.v k i = d.v k i) : Row q p d' j k :=
  fun i hi => by rw [e, h i hi]

theorem W_mid (q p : ℝ) {j k i : ℕ} (hk : k < j) (hi : i ≤ j) :
    1 / (j : ℝ) * √((j - k : ℕ) : ℝ) * q * √((j - i : ℕ) : ℝ) * W q p (j - 1) k i
      - 1 / (j : ℝ) * √((j - k : ℕ) : ℝ) * p * √(i : ℝ) * W q p (j - 1) k (i - 1)
      + 1 / (j : ℝ) * √(k : ℝ) * p * √((j - i : ℕ) : ℝ) * W q p (j - 1) (k - 1) i
      + 1 / (j : ℝ) * √(k : ℝ) * q * √(i : ℝ) * W q p (j - 1) (k - 1) (i - 1) = W q p j k i := by
  have h := W_rec q p hk hi
  have hj : (j : ℝ) ≠ 0 := by have : 0 < j := by omega
                              positivity
  field_simp
  linear_combination -h

theorem pad_spec (q p : ℝ) {n : ℕ} {d : A2} (hn : 2 ≤ n) (h1 : n < d.n1) (h2 : 2 * n - 2 < d.n2)
    (hr : ∀ k < n, Row q p d (2 * n - 2) k) :
    ∃ d', pad n d = ok d' ∧ d'.n1 = d.n1 ∧ d'.n2 = d.n2 ∧ ∀ k ≤ n, Row q p d' (2 * n - 2) k := by
  obtain ⟨r, hrr, hs, e1, e2, hrow, hnew⟩ := forN_inv (2 * n - 1) (fun i (r : ℝ × A2) => do
    let x ← r.2.get ((n : ℤ) - 2) (2 * (n : ℤ) - 2 - i)
    let d ← r.2.put n i (r.1 * x)
    ok (-r.1, d)) (if n % 2 = 1 then (-1 : ℝ) else 1, d)
    (fun t r => r.1 = (-1) ^ (n + t) ∧ r.2.n1 = d.n1 ∧ r.2.n2 = d.n2 ∧ (∀ k < n, Row q p r.2 (2 * n - 2) k) ∧
      ∀ i < t, r.2.v n i = W q p (2 * n - 2) n i)
    (by
      refine ⟨?_, rfl, rfl, hr, by omega⟩
      simp only [add_zero]
      split
      · rename_i h; rw [Odd.neg_one_pow (Nat.odd_iff.mpr h)]
      · rename_i h; rw [Even.neg_one_pow (Nat.even_iff.mpr (by omega))])
    (by
      rintro t ⟨sg, d'⟩ ht ⟨hsg, e1, e2, hrow, hnew⟩
      simp only at hsg e1 e2 hrow hnew
      dsimp only
      rw [A2.get_ok' (n - 2) (2 * n - 2 - t) (by omega) (by omega) (by omega) (by omega)]
      simp only [ok_bind]
      rw [A2.put_ok _ (by omega) (by omega)]
      refine ⟨_, rfl, ?_, e1, e2, ?_, ?_⟩
      · rw [hsg, ← Nat.add_assoc, pow_succ]; ring
      · intro k hk
        exact Row_congr (hrow k hk) (fun i => A2.upd_ne _ _ (Or.inl (by omega)))
      · intro i hi
        by_cases hit : i = t
        · subst hit
          simp only
          rw [A2.upd_self, hrow (n - 2) (by omega) _ (by omega), hsg]
          have h := W_reflect q p (j := 2 * n - 2) (k := n) (i := i) (by omega) (by omega)
          rw [show 2 * n - 2 - n = n - 2 by omega] at h
          rw [h, ← mul_assoc, ← mul_pow]
          simp
        · simp only
          rw [A2.upd_ne _ _ (Or.inr hit)]
          exact hnew i (by omega))
  unfold pad
  rw [hrr]
  refine ⟨r.2, rfl, e1, e2, ?_⟩
  intro k hk
  by_cases hkn : k = n
  · subst hkn
    exact fun i hi => hnew i (by omega)
  · exact hrow k (by omega)

theorem doLine0_spec (q p : ℝ) {lmax j : ℕ} {d : A2} (hj : 1 ≤ j) (hjl : j ≤ 2 * lmax) (h1 : 0 < d.n1) (h2 : j < d.n2)
    (hr : Row q p d (j - 1) 0) :
    ∃ d', doLine0 q p (sqTab lmax) j d = ok d' ∧ d'.n1 = d.n1 ∧ d'.n2 = d.n2 ∧ Row q p d' j 0 ∧
      ∀ k ≠ 0, ∀ i, d'.v k i = d.v k i := by
  have hj0 : (j : ℝ) ≠ 0 := by have : 0 < j := by omega
                               positivity
  have sj := sqj j
  unfold doLine0
  rw [A2.get_ok' 0 (j - 1) (by omega) (by omega) (by omega) (by omega)]
  simp only [ok_bind]
  rw [A2.put_ok' _ 0 j (by omega) (by omega) (by omega) (by omega)]
  simp only [ok_bind]
  rw [rd_sq j rfl hjl]
  simp only [ok_bind]
  obtain ⟨r, hrr, e1, e2, hdone, htodo, hoth⟩ := forN_inv (j - 1) (fun t (d : A2) => do
      let sji ← rd (sqTab lmax) ((j : ℤ) - ((j : ℤ) - 1 - t))
      let si ← rd (sqTab lmax) ((j : ℤ) - 1 - t)
      let x ← d.get 0 ((j : ℤ) - 1 - t)
      let y ← d.get 0 ((j : ℤ) - 1 - t - 1)
      d.put 0 ((j : ℤ) - 1 - t) (1 / (j : ℝ) * √(j : ℝ) * (q * sji * x - p * si * y)))
    (d.upd 0 j (-p * d.v 0 (j - 1)))
    (fun t r => r.n1 = d.n1 ∧ r.n2 = d.n2 ∧ (∀ i, j - t ≤ i → i ≤ j → r.v 0 i = W q p j 0 i) ∧
      (∀ i < j - t, r.v 0 i = W q p (j - 1) 0 i) ∧ ∀ k ≠ 0, ∀ i, r.v k i = d.v k i)
    (by
      refine ⟨rfl, rfl, ?_, ?_, ?_⟩
      · intro i hi hi'
        have : i = j := by omega
        subst this
        rw [A2.upd_self, hr _ le_rfl]
        have h := W_rec q p (j := i) (k := 0) (i := i) (by omega) le_rfl
        simp only [Nat.sub_zero, Nat.sub_self, Nat.cast_zero, Real.sqrt_zero] at h
        apply mul_left_cancel₀ hj0
        rw [h]
        linear_combination (-p * W q p (i - 1) 0 (i - 1)) * (-sj)
      · intro i hi
        rw [A2.upd_ne _ _ (Or.inr (by omega)), hr i (by omega)]
      · intro k hk i
        rw [A2.upd_ne _ _ (Or.inl hk)])
    (by
      rintro t r ht ⟨e1, e2, hdone, htodo, hoth⟩
      rw [rd_sq (t + 1) (by omega) (by omega), rd_sq (j - 1 - t) (by omega) (by omega)]
      simp only [ok_bind]
      rw [A2.get_ok' 0 (j - 1 - t) (by omega) (by omega) (by omega) (by omega)]
      simp only [ok_bind]
      rw [A2.get_ok' 0 (j - 1 - t - 1) (by omega) (by omega) (by omega) (by omega)]
      simp only [ok_bind]
      rw [A2.put_ok' _ 0 (j - 1 - t) (by omega) (by omega) (by omega) (by omega)]
      refine ⟨_, rfl, e1, e2, ?_, ?_, ?_⟩
      · intro i hi hi'
        by_cases hit : i = j - 1 - t
        · rw [hit, A2.upd_self, htodo _ (by omega), htodo _ (by omega)]
          have h := W_mid q p (j := j) (k := 0) (i := j - 1 - t) (by omega) (by omega)
          simp only [Nat.sub_zero, Nat.cast_zero, Real.sqrt_zero] at h
          rw [show j - (j - 1 - t) = t + 1 by omega] at h
          rw [← h]; ring
        · rw [A2.upd_ne _ _ (Or.inr hit)]
          exact hdone i (by omega) hi'
      · intro i hi
        rw [A2.upd_ne _ _ (Or.inr (by omega))]
        exact htodo i (by omega)
      · intro k hk i
        rw [A2.upd_ne _ _ (Or.inl hk)]
        exact hoth k hk i)
  rw [hrr]
  simp only [ok_bind]
  rw [A2.get_ok' 0 0 (by omega) (by omega) (by omega) (by omega)]
  simp only [ok_bind]
  rw [A2.put_ok' _ 0 0 (by omega) (by omega) (by omega) (by omega)]
  refine ⟨_, rfl, e1, e2, ?_, ?_⟩
  · intro i hi
    by_cases hi0 : i = 0
    · subst hi0
      rw [A2.upd_self, htodo _ (by omega)]
      have h := W_rec q p (j := j) (k := 0) (i := 0) (by omega) (by omega)
      simp only [Nat.sub_zero, Nat.cast_zero, Real.sqrt_zero] at h
      apply mul_left_cancel₀ hj0
      rw [h]
      linear_combination (-q * W q p (j - 1) 0 0) * sj
    · rw [A2.upd_ne _ _ (Or.inr hi0)]
      exact hdone i (by omega) hi
  · intro k hk i
    rw [A2.upd_ne _ _ (Or.inl hk)]
    exact hoth k hk i

theorem doLine_spec (q p : ℝ) {lmax j k : ℕ} {d : A2} (hk : 1 ≤ k) (hkj : k < j) (hjl : j ≤ 2 * lmax) (h1 : k < d.n1)
    (h2 : j < d.n2) (hr' : Row q p d (j - 1) (k - 1)) (hr : Row q p d (j - 1) k) :
    ∃ d', doLine q p (sqTab lmax) j k d = ok d' ∧ d'.n1 = d.n1 ∧ d'.n2 = d.n2 ∧ Row q p d' j k ∧
      ∀ k' ≠ k, ∀ i, d'.v k' i = d.v k' i := by
  have hj0 : (j : ℝ) ≠ 0 := by have : 0 < j := by omega
                               positivity
  have sj := sqj j
  unfold doLine
  rw [rd_sq (j - k) (by omega) (by omega), rd_sq k rfl (by omega), rd_sq j rfl hjl]
  simp only [ok_bind]
  rw [A2.get_ok' (k - 1) (j - 1) (by omega) (by omega) (by omega) (by omega)]
  simp only [ok_bind]
  rw [A2.get_ok' k (j - 1) (by omega) (by omega) (by omega) (by omega)]
  simp only [ok_bind]
  rw [A2.put_ok _ (by omega) (by omega)]
  simp only [ok_bind]
  set xj := 1 / (j : ℝ) with hxj
  obtain ⟨r, hrr, e1, e2, hdone, htodo, hoth⟩ := forN_inv (j - 1) (fun t (d : A2) => do
      let sji ← rd (sqTab lmax) ((j : ℤ) - ((j : ℤ) - 1 - t))
      let si ← rd (sqTab lmax) ((j : ℤ) - 1 - t)
      let a ← d.get k ((j : ℤ) - 1 - t)
      let b ← d.get k ((j : ℤ) - 1 - t - 1)
      let a' ← d.get ((k : ℤ) - 1) ((j : ℤ) - 1 - t)
      let b' ← d.get ((k : ℤ) - 1) ((j : ℤ) - 1 - t - 1)
      d.put k ((j : ℤ) - 1 - t) (xj * √((j - k : ℕ) : ℝ) * q * sji * a - xj * √((j - k : ℕ) : ℝ) * p * si * b +
        xj * √(k : ℝ) * p * sji * a' + xj * √(k : ℝ) * q * si * b'))
    (d.upd k j (√(j : ℝ) * (xj * √(k : ℝ) * q * d.v (k - 1) (j - 1) - xj * √((j - k : ℕ) : ℝ) * p * d.v k (j - 1))))
    (fun t r => r.n1 = d.n1 ∧ r.n2 = d.n2 ∧ (∀ i, j - t ≤ i → i ≤ j → r.v k i = W q p j k i) ∧
      (∀ i < j - t, r.v k i = W q p (j - 1) k i) ∧ ∀ k' ≠ k, ∀ i, r.v k' i = d.v k' i)
    (by
      refine ⟨rfl, rfl, ?_, ?_, ?_⟩
      · intro i hi hi'
        have : i = j := by omega
        subst this
        rw [A2.upd_self, hr _ le_rfl, hr' _ le_rfl]
        have h := W_mid q p (j := i) (k := k) (i := i) (by omega) le_rfl
        simp only [Nat.sub_self, Nat.cast_zero, Real.sqrt_zero] at h
        rw [← h]; ring
      · intro i hi
        rw [A2.upd_ne _ _ (Or.inr (by omega)), hr i (by omega)]
      · intro k' hk i
        rw [A2.upd_ne _ _ (Or.inl hk)])
    (by
      rintro t r ht ⟨e1, e2, hdone, htodo, hoth⟩
      rw [rd_sq (t + 1) (by omega) (by omega), rd_sq (j - 1 - t) (by omega) (by omega)]
      simp only [ok_bind]
      rw [A2.get_ok' k (j - 1 - t) (by omega) (by omega) (by omega) (by omega)]
      simp only [ok_bind]
      rw [A2.get_ok' k (j - 1 - t - 1) (by omega) (by omega) (by omega) (by omega)]
      simp only [ok_bind]
      rw [A2.get_ok' (k - 1) (j - 1 - t) (by omega) (by omega) (by omega) (by omega)]
      simp only [ok_bind]
      rw [A2.get_ok' (k - 1) (j - 1 - t - 1) (by omega) (by omega) (by omega) (by omega)]
      simp only [ok_bind]
      rw [A2.put_ok' _ k (j - 1 - t) (by omega) (by omega) (by omega) (by omega)]
      refine ⟨_, rfl, e1, e2, ?_, ?_, ?_⟩
      · intro i hi hi'
        by_cases hit : i = j - 1 - t
        · rw [hit, A2.upd_self, htodo _ (by omega), htodo _ (by omega), hoth _ (by omega), hoth _ (by omega),
            hr' _ (by omega), hr' _ (by omega)]
          have h := W_mid q p (j := j) (k := k) (i := j - 1 - t) (by omega) (by omega)
          rw [show j - (j - 1 - t) = t + 1 by omega] at h
          rw [← h]
        · rw [A2.upd_ne _ _ (Or.inr hit)]
          exact hdone i (by omega) hi'
      · intro i hi
        rw [A2.upd_ne _ _ (Or.inr (by omega))]
        exact htodo i (by omega)
      · intro k' hk i
        rw [A2.upd_ne _ _ (Or.inl hk)]
        exact hoth k' hk i)
  rw [hrr]
  simp only [ok_bind]
  rw [A2.get_ok' (k - 1) 0 (by omega) (by omega) (by omega) (by omega)]
  simp only [ok_bind]
  rw [A2.get_ok' k 0 (by omega) (by omega) (by omega) (by omega)]
  simp only [ok_bind]
  rw [A2.put_ok' _ k 0 (by omega) (by omega) (by omega) (by omega)]
  refine ⟨_, rfl, e1, e2, ?_, ?_⟩
  · intro i hi
    by_cases hi0 : i = 0
    · subst hi0
      rw [A2.upd_self, htodo _ (by omega), hoth _ (by omega), hr' _ (by omega)]
      have h := W_mid q p (j := j) (k := k) (i := 0) (by omega) (by omega)
      simp only [Nat.sub_zero, Nat.cast_zero, Real.sqrt_zero] at h
      rw [← h]; ring
    · rw [A2.upd_ne _ _ (Or.inr hi0)]
      exact hdone i (by omega) hi
  · intro k' hk i
    rw [A2.upd_ne _ _ (Or.inl hk)]
    exact hoth k' hk i

theorem scalarStep_spec (q p : ℝ) {lmax n : ℕ} {d : A2} (hn : 2 ≤ n) (hl : n ≤ lmax) (h1 : d.n1 = lmax + 1)
    (h2 : d.n2 = 2 * lmax + 1) (hr : ∀ k < n, Row q p d (2 * n - 2) k) :
    ∃ d', scalarStep q p (sqTab lmax) n d = ok d' ∧ d'.n1 = lmax + 1 ∧ d'.n2 = 2 * lmax + 1 ∧
      ∀ k ≤ n, Row q p d' (2 * n) k := by
  obtain ⟨a, ha, a1, a2, ar⟩ := pad_spec q p hn (by omega) (by omega) hr
  obtain ⟨b, hb, b1, b2, br, bo⟩ := doLine_spec q p (lmax := lmax) (j := 2 * n - 1) (k := n) (d := a) (by omega) (by omega)
    (by omega) (by omega) (by omega) (ar _ (by omega)) (ar _ (by omega))
  unfold scalarStep
  rw [ha]; simp only [ok_bind]
  rw [hb]; simp only [ok_bind]
  obtain ⟨c, hc, c1, c2, clow, cmid, chigh⟩ := forN_inv (n - 1) (fun t (d : A2) => do
      let d ← doLine q p (sqTab lmax) (2 * n - 1) (n - t - 1) d
      doLine q p (sqTab lmax) (2 * n) (n - t) d) b
    (fun t r => r.n1 = lmax + 1 ∧ r.n2 = 2 * lmax + 1 ∧ (∀ k < n - t, Row q p r (2 * n - 2) k) ∧
      Row q p r (2 * n - 1) (n - t) ∧ ∀ k, n - t < k → k ≤ n → Row q p r (2 * n) k)
    (by
      refine ⟨by omega, by omega, ?_, br, by omega⟩
      intro k hk
      exact Row_congr (ar k (by omega)) (bo k (by omega)))
    (by
      rintro t r ht ⟨e1, e2, hlow, hmid, hhigh⟩
      obtain ⟨x, hx, x1, x2, xr, xo⟩ := doLine_spec q p (lmax := lmax) (j := 2 * n - 1) (k := n - t - 1) (d := r) (by omega)
        (by omega) (by omega) (by omega) (by omega) (hlow _ (by omega)) (hlow _ (by omega))
      obtain ⟨y, hy, y1, y2, yr, yo⟩ := doLine_spec q p (lmax := lmax) (j := 2 * n) (k := n - t) (d := x) (by omega)
        (by omega) (by omega) (by omega) (by omega) xr (Row_congr hmid (xo _ (by omega)))
      rw [hx]; simp only [ok_bind]
      refine ⟨y, hy, by omega, by omega, ?_, ?_, ?_⟩
      · intro k hk
        exact Row_congr (hlow k (by omega)) (fun i => by rw [yo k (by omega), xo k (by omega)])
      · rw [show n - (t + 1) = n - t - 1 by omega]
        exact Row_congr xr (yo _ (by omega))
      · intro k hk hk'
        by_cases hkt : k = n - t
        · subst hkt; exact yr
        · exact Row_congr (hhigh k (by omega) hk') (fun i => by rw [yo k (by omega), xo k (by omega)]))
  rw [hc]; simp only [ok_bind]
  rw [show n - (n - 1) = 1 by omega] at clow cmid chigh
  obtain ⟨x, hx, x1, x2, xr, xo⟩ := doLine0_spec q p (lmax := lmax) (j := 2 * n - 1) (d := c) (by omega) (by omega) (by omega)
    (by omega) (clow 0 (by omega))
  rw [hx]; simp only [ok_bind]
  obtain ⟨y, hy, y1, y2, yr, yo⟩ := doLine_spec q p (lmax := lmax) (j := 2 * n) (k := 1) (d := x) (by omega)
    (by omega) (by omega) (by omega) (by omega) xr (Row_congr cmid (xo 1 (by omega)))
  rw [hy]; simp only [ok_bind]
  obtain ⟨z, hz, z1, z2, zr, zo⟩ := doLine0_spec q p (lmax := lmax) (j := 2 * n) (d := y) (by omega) (by omega) (by omega)
    (by omega) (Row_congr xr (yo 0 (by omega)))
  refine ⟨z, hz, by omega, by omega, ?_⟩
  intro k hk
  by_cases k0 : k = 0
  · subst k0; exact zr
  · by_cases k1 : k = 1
    · subst k1; exact Row_congr yr (zo 1 k0)
    · exact Row_congr (chigh k (by omega) hk) (fun i => by rw [zo k k0, yo k k1, xo k k0])

/-! ## The parallel variant -/

theorem ompRow0_spec (q p : ℝ) {lmax j : ℕ} {d dd : A2} (hj : 1 ≤ j) (hjl : j ≤ 2 * lmax) (h1 : 0 < d.n1) (h2 : j < d.n2)
    (h1' : dd.n1 = d.n1) (h2' : dd.n2 = d.n2) (hr : Row q p d (j - 1) 0) :
    ∃ d', ompRow0 q p (sqTab lmax) j d dd = ok d' ∧ d'.n1 = d.n1 ∧ d'.n2 = d.n2 ∧ Row q p d' j 0 := by
  have hj0 : (j : ℝ) ≠ 0 := by have : 0 < j := by omega
                               positivity
  have sj := sqj j
  unfold ompRow0
  rw [A2.get_ok' 0 0 (by omega) (by omega) (by omega) (by omega)]
  simp only [ok_bind]
  rw [A2.put_ok' _ 0 0 (by omega) (by omega) (by omega) (by omega)]
  simp only [ok_bind]
  obtain ⟨r, hrr, e1, e2, hdone⟩ := forN_inv (j - 1) (fun t (dd : A2) => do
    let sj ← rd (sqTab lmax) j
    let sji ← rd (sqTab lmax) ((j : ℤ) - ((t : ℤ) + 1))
    let si ← rd (sqTab lmax) ((t : ℤ) + 1)
    let x ← d.get 0 ((t : ℤ) + 1)
    let y ← d.get 0 ((t : ℤ) + 1 - 1)
    dd.put 0 ((t : ℤ) + 1) (1 / (j : ℝ) * sj * (q * sji * x - p * si * y))) (dd.upd 0 0 (q * d.v 0 0))
    (fun t r => r.n1 = d.n1 ∧ r.n2 = d.n2 ∧ ∀ i ≤ t, r.v 0 i = W q p j 0 i)
    (by
      refine ⟨h1', h2', ?_⟩
      intro i hi
      have : i = 0 := by omega
      subst this
      rw [A2.upd_self, hr 0 (by omega)]
      have h := W_rec q p (j := j) (k := 0) (i := 0) (by omega) (by omega)
      simp only [Nat.sub_zero, Nat.cast_zero, Real.sqrt_zero] at h
      apply mul_left_cancel₀ hj0
      rw [h]
      linear_combination (-q * W q p (j - 1) 0 0) * sj)
    (by
      rintro t r ht ⟨e1, e2, hdone⟩
      rw [rd_sq j rfl hjl, rd_sq (j - (t + 1)) (by omega) (by omega), rd_sq (t + 1) (by omega) (by omega)]
      simp only [ok_bind]
      rw [A2.get_ok' 0 (t + 1) (by omega) (by omega) (by omega) (by omega)]
      simp only [ok_bind]
      rw [A2.get_ok' 0 t (by omega) (by omega) (by omega) (by omega)]
      simp only [ok_bind]
      rw [A2.put_ok' _ 0 (t + 1) (by omega) (by omega) (by omega) (by omega)]
      refine ⟨_, rfl, e1, e2, ?_⟩
      intro i hi
      by_cases hit : i = t + 1
      · rw [hit, A2.upd_self, hr _ (by omega), hr _ (by omega)]
        have h := W_mid q p (j := j) (k := 0) (i := t + 1) (by omega) (by omega)
        simp only [Nat.sub_zero, Nat.cast_zero, Real.sqrt_zero] at h
        rw [← h, show t + 1 - 1 = t by omega]; ring
      · rw [A2.upd_ne _ _ (Or.inr hit)]
        exact hdone i (by omega))
  rw [hrr]
  simp only [ok_bind]
  rw [A2.get_ok' 0 (j - 1) (by omega) (by omega) (by omega) (by omega)]
  simp only [ok_bind]
  rw [A2.put_ok' _ 0 j (by omega) (by omega) (by omega) (by omega)]
  refine ⟨_, rfl, e1, e2, ?_⟩
  intro i hi
  by_cases hij : i = j
  · subst hij
    rw [A2.upd_self, hr _ le_rfl]
    have h := W_rec q p (j := i) (k := 0) (i := i) (by omega) le_rfl
    simp only [Nat.sub_zero, Nat.sub_self, Nat.cast_zero, Real.sqrt_zero] at h
    apply mul_left_cancel₀ hj0
    rw [h]
    linear_combination (-p * W q p (i - 1) 0 (i - 1)) * (-sj)
  · rw [A2.upd_ne _ _ (Or.inr hij)]
    exact hdone i (by omega)

theorem ompCell_spec (q p : ℝ) {lmax j k i : ℕ} {d dd : A2} (hk : 1 ≤ k) (hkj : k < j) (hi : i ≤ j) (hjl : j ≤ 2 * lmax)
    (h1 : k < d.n1) (h2 : j < d.n2) (h1' : dd.n1 = d.n1) (h2' : dd.n2 = d.n2) (hr' : Row q p d (j - 1) (k - 1))
    (hr : Row q p d (j - 1) k) : ompCell q p (sqTab lmax) j d dd k i = ok (dd.upd k i (W q p j k i)) := by
  have h := W_mid q p (j := j) (k := k) (i := i) hkj hi
  unfold ompCell
  rw [rd_sq (j - k) (by omega) (by omega), rd_sq k rfl (by omega)]
  simp only [ok_bind]
  by_cases hi0 : i = 0
  · subst hi0
    rw [if_pos rfl, rd_sq j rfl hjl]
    simp only [ok_bind]
    rw [A2.get_ok' k 0 (by omega) (by omega) (by omega) (by omega)]
    simp only [ok_bind]
    rw [A2.get_ok' (k - 1) 0 (by omega) (by omega) (by omega) (by omega)]
    simp only [ok_bind]
    rw [A2.put_ok' _ k 0 (by omega) (by omega) (by omega) (by omega), hr _ (by omega), hr' _ (by omega), ← h]
    simp only [Nat.sub_zero, Nat.cast_zero, Real.sqrt_zero]
    congr 2; ring
  · rw [if_neg hi0]
    by_cases hij : i < j
    · rw [if_pos hij, rd_sq (j - i) (by omega) (by omega), rd_sq i rfl (by omega)]
      simp only [ok_bind]
      rw [A2.get_ok' k i (by omega) (by omega) (by omega) (by omega)]
      simp only [ok_bind]
      rw [A2.get_ok' k (i - 1) (by omega) (by omega) (by omega) (by omega)]
      simp only [ok_bind]
      rw [A2.get_ok' (k - 1) i (by omega) (by omega) (by omega) (by omega)]
      simp only [ok_bind]
      rw [A2.get_ok' (k - 1) (i - 1) (by omega) (by omega) (by omega) (by omega)]
      simp only [ok_bind]
      rw [A2.put_ok _ (by omega) (by omega), hr _ (by omega), hr _ (by omega), hr' _ (by omega), hr' _ (by omega), ← h]
    · have : i = j := by omega
      subst this
      rw [if_neg hij, rd_sq i rfl hjl]
      simp only [ok_bind]
      rw [A2.get_ok' k (i - 1) (by omega) (by omega) (by omega) (by omega)]
      simp only [ok_bind]
      rw [A2.get_ok' (k - 1) (i - 1) (by omega) (by omega) (by omega) (by omega)]
      simp only [ok_bind]
      rw [A2.put_ok _ (by omega) (by omega), hr _ (by omega), hr' _ (by omega), ← h]
      simp only [Nat.sub_self, Nat.cast_zero, Real.sqrt_zero]
      congr 2; ring

theorem fold_cells (f : A2 → ℕ × ℕ → Res A2) (g : ℕ → ℕ → ℝ) (n1 n2 : ℕ) (s : List (ℕ × ℕ)) (dd : A2) (e1 : dd.n1 = n1)
    (e2 : dd.n2 = n2) (hf : ∀ dd : A2, dd.n1 = n1 → dd.n2 = n2 → ∀ c ∈ s, f dd c = ok (dd.upd c.1 c.2 (g c.1 c.2))) :
    ∃ d', foldRes f dd s = ok d' ∧ d'.n1 = n1 ∧ d'.n2 = n2 ∧
      ∀ k i, d'.v k i = if (k, i) ∈ s then g k i else dd.v k i := by
  induction s generalizing dd with
  | nil => exact ⟨dd, rfl, e1, e2, fun k i => by simp⟩
  | cons c s ih =>
    rw [foldRes_cons, hf dd e1 e2 c (by simp)]
    obtain ⟨d', h, a1, a2, hv⟩ := ih (dd.upd c.1 c.2 (g c.1 c.2)) e1 e2 (fun dd' x y c' hc' => hf dd' x y c' (by simp [hc']))
    refine ⟨d', h, a1, a2, ?_⟩
    intro k i
    rw [hv]
    by_cases hm : (k, i) ∈ s
    · simp [hm]
    · by_cases hc : k = c.1 ∧ i = c.2
      · obtain ⟨rfl, rfl⟩ := hc
        rw [A2.upd_self]; simp
      · rw [A2.upd_ne _ _ (by omega)]
        have : (k, i) ≠ c := fun e => hc (by rw [← e]; exact ⟨rfl, rfl⟩)
        simp [hm, this]

theorem mem_cells {n j k i : ℕ} : (k, i) ∈ cells n j ↔ (1 ≤ k ∧ k ≤ n) ∧ i ≤ j := by
  unfold cells
  rw [List.product, List.mem_flatMap]
  constructor
  · rintro ⟨a, ha, hb⟩
    simp only [List.mem_range'_1, List.mem_map, List.mem_range, Prod.mk.injEq] at ha hb
    obtain ⟨b, hb, rfl, rfl⟩ := hb
    omega
  · rintro ⟨h, hi⟩
    refine ⟨k, by simp only [List.mem_range'_1]; omega, ?_⟩
    simp only [List.mem_map, List.mem_range, Prod.mk.injEq]
    exact ⟨i, by omega, by simp⟩

theorem ompHalf_spec (q p : ℝ) {lmax n j : ℕ} {d dd : A2} {s : List (ℕ × ℕ)} (hs : s.Perm (cells n j)) (hj : n < j)
    (hjl : j ≤ 2 * lmax) (hn : n ≤ lmax) (h1 : d.n1 = lmax + 1) (h2 : d.n2 = 2 * lmax + 1) (h1' : dd.n1 = lmax + 1)
    (h2' : dd.n2 = 2 * lmax + 1) (hr : ∀ k ≤ n, Row q p d (j - 1) k) :
    ∃ r, ompHalf q p (sqTab lmax) j s d dd = ok r ∧ r.1.n1 = lmax + 1 ∧ r.1.n2 = 2 * lmax + 1 ∧ r.2 = d ∧
      ∀ k ≤ n, Row q p r.1 j k := by
  obtain ⟨a, ha, a1, a2, ar⟩ := ompRow0_spec q p (lmax := lmax) (j := j) (d := d) (dd := dd) (by omega) hjl (by omega)
    (by omega) (by omega) (by omega) (hr 0 (by omega))
  obtain ⟨b, hb, b1, b2, bv⟩ := fold_cells (fun dd c => ompCell q p (sqTab lmax) j d dd c.1 c.2) (W q p j) (lmax + 1)
    (2 * lmax + 1) s a (by omega) (by omega) (by
      rintro dd' e1 e2 ⟨k, i⟩ hc
      have hm := mem_cells.mp (hs.mem_iff.mp hc)
      exact ompCell_spec q p (by omega) (by omega) (by omega) hjl (by omega) (by omega) (by omega) (by omega)
        (hr _ (by omega)) (hr _ (by omega)))
  unfold ompHalf
  rw [ha]; simp only [ok_bind]
  rw [hb]
  refine ⟨(b, d), rfl, b1, b2, rfl, ?_⟩
  intro k hk i hi
  rw [bv]
  by_cases k0 : k = 0
  · subst k0
    rw [if_neg (fun h => by have := mem_cells.mp (hs.mem_iff.mp h); omega)]
    exact ar i hi
  · rw [if_pos (hs.mem_iff.mpr (mem_cells.mpr ⟨by omega, hi⟩))]

theorem ompStep_spec (q p : ℝ) {lmax n : ℕ} {d dd : A2} {s : ℕ → List (ℕ × ℕ)} (hs : ∀ j, (s j).Perm (cells ((j + 1) / 2) j))
    (hn : 2 ≤ n) (hl : n ≤ lmax) (h1 : d.n1 = lmax + 1) (h2 : d.n2 = 2 * lmax + 1) (h1' : dd.n1 = lmax + 1)
    (h2' : dd.n2 = 2 * lmax + 1) (hr : ∀ k < n, Row q p d (2 * n - 2) k) :
    ∃ r, ompStep q p (sqTab lmax) n s d dd = ok r ∧ r.1.n1 = lmax + 1 ∧ r.1.n2 = 2 * lmax + 1 ∧ r.2.n1 = lmax + 1 ∧
      r.2.n2 = 2 * lmax + 1 ∧ ∀ k ≤ n, Row q p r.1 (2 * n) k := by
  obtain ⟨a, ha, a1, a2, ar⟩ := pad_spec q p hn (by omega) (by omega) hr
  have s1 := hs (2 * n - 1)
  have s2 := hs (2 * n)
  rw [show (2 * n - 1 + 1) / 2 = n by omega] at s1
  rw [show (2 * n + 1) / 2 = n by omega] at s2
  obtain ⟨x, hx, x1, x2, x3, xr⟩ := ompHalf_spec q p (lmax := lmax) s1 (by omega) (by omega) hl (by omega) (by omega) h1' h2' ar
  obtain ⟨y, hy, y1, y2, y3, yr⟩ := ompHalf_spec q p (lmax := lmax) (d := x.1) (dd := x.2) s2 (by omega) (by omega) hl x1 x2
    (by rw [x3]; omega) (by rw [x3]; omega) (by exact xr)
  unfold ompStep
  rw [ha]; simp only [ok_bind]
  rw [hx]; simp only [ok_bind]
  exact ⟨y, hy, y1, y2, by rw [y3]; exact x1, by rw [y3]; exact x2, yr⟩

/-! ## Both classes -/

/-- What holds after `n + 1` calls. -/
structure Good (lmax : ℕ) (θ : ℝ) (n : ℕ) (r : Rec) : Prop where
  hp : r.p = Real.sin (θ / 2)
  hq : r.q = Real.cos (θ / 2)
  hsq : r.sqt = sqTab lmax
  h1 : r.d.n1 = lmax + 1
  h2 : r.d.n2 = 2 * lmax + 1
  h1' : r.dd.n1 = lmax + 1
  h2' : r.dd.n2 = 2 * lmax + 1
  hn : r.n = n
  rows : ∀ k ≤ n, Row (Real.cos (θ / 2)) (Real.sin (θ / 2)) r.d (2 * n) k

theorem W_zero (q p : ℝ) : W q p 0 0 0 = 1 := by
  unfold W nrm P; simp

open Polynomial in
theorem first_spec (q p : ℝ) {lmax : ℕ} {d : A2} (hl : 1 ≤ lmax) (h1 : d.n1 = lmax + 1) (h2 : d.n2 = 2 * lmax + 1) :
    ∃ d', first q p (sqTab lmax) d = ok d' ∧ d'.n1 = lmax + 1 ∧ d'.n2 = 2 * lmax + 1 ∧ ∀ k ≤ 1, Row q p d' 2 k := by
  unfold first
  rw [A2.put_ok' (k := 0) (i := 0) _ 0 0 rfl rfl (by omega) (by omega)]
  simp only [ok_bind]
  rw [rd_sq (i := 2) 2 rfl (by omega)]
  simp only [ok_bind]
  rw [A2.put_ok' (k := 0) (i := 1) _ 0 1 rfl rfl (by simp only [A2.upd_n1]; omega) (by simp only [A2.upd_n2]; omega)]
  simp only [ok_bind]
  rw [A2.put_ok' (k := 0) (i := 2) _ 0 2 rfl rfl (by simp only [A2.upd_n1]; omega) (by simp only [A2.upd_n2]; omega)]
  simp only [ok_bind]
  rw [A2.get_ok' (k := 0) (i := 1) 0 1 rfl rfl (by simp only [A2.upd_n1]; omega) (by simp only [A2.upd_n2]; omega)]
  simp only [ok_bind]
  rw [A2.put_ok' (k := 1) (i := 0) _ 1 0 rfl rfl (by simp only [A2.upd_n1]; omega) (by simp only [A2.upd_n2]; omega)]
  simp only [ok_bind]
  rw [A2.put_ok' (k := 1) (i := 1) _ 1 1 rfl rfl (by simp only [A2.upd_n1]; omega) (by simp only [A2.upd_n2]; omega)]
  simp only [ok_bind]
  rw [A2.get_ok' (k := 0) (i := 1) 0 1 rfl rfl (by simp only [A2.upd_n1]; omega) (by simp only [A2.upd_n2]; omega)]
  simp only [ok_bind]
  rw [A2.put_ok' (k := 1) (i := 2) _ 1 2 rfl rfl (by simp only [A2.upd_n1]; omega) (by simp only [A2.upd_n2]; omega)]
  refine ⟨_, rfl, h1, h2, ?_⟩
  have s2 : √(2 : ℝ) ≠ 0 := by positivity
  have s22 : √(2 : ℝ) * √2 = 2 := Real.mul_self_sqrt (by norm_num)
  have cq2 : ∀ a b c : ℝ, (C a * X ^ 2 + C b * X ^ 1 + C c : ℝ[X]).coeff 2 = a := by
    intro a b c
    simp only [coeff_add, coeff_C_mul, coeff_X_pow, coeff_C]; norm_num
  have cq1 : ∀ a b c : ℝ, (C a * X ^ 2 + C b * X ^ 1 + C c : ℝ[X]).coeff 1 = b := by
    intro a b c
    simp only [coeff_add, coeff_C_mul, coeff_X_pow, coeff_C]; norm_num
  have eA : P q p 2 0 = C (q * q) * X ^ 2 + C (2 * p * q) * X ^ 1 + C (p * p) := by
    unfold P; simp only [C_mul, C_ofNat]; ring
  have eB : P q p 1 1 = C (-p * q) * X ^ 2 + C (q * q - p * p) * X ^ 1 + C (p * q) := by
    unfold P; simp only [C_mul, C_sub, C_neg]; ring
  have eC : P q p 0 2 = C (p * p) * X ^ 2 + C (-(2 * p * q)) * X ^ 1 + C (q * q) := by
    unfold P; simp only [C_mul, C_neg, C_ofNat]; ring
  intro k hk i hi
  have hk' : k = 0 ∨ k = 1 := by omega
  have hi' : i = 0 ∨ i = 1 ∨ i = 2 := by omega
  rcases hk' with rfl | rfl <;> rcases hi' with rfl | rfl | rfl
  all_goals
    unfold W
    simp only [Nat.sub_zero, Nat.sub_self, show 2 - 1 = 1 from rfl, eA, eB, eC, cq2, cq1]
    norm_num [A2.upd, nrm, Nat.factorial]
  all_goals first
    | done
    | ring1
    | (field_simp; done)
    | (field_simp; linear_combination (p * q) * s22)
    | (field_simp; linear_combination (-p * q) * s22)

theorem scalar_step {lmax n : ℕ} {θ : ℝ} {r : Rec} (h : Good lmax θ n r) (hn : n + 1 ≤ lmax) :
    ∃ r', r.scalar = ok r' ∧ Good lmax θ (n + 1) r' := by
  obtain ⟨hp, hq, hsq, h1, h2, h1', h2', hn', rows⟩ := h
  unfold Rec.scalar
  rw [if_neg (by omega), hp, hq, hsq]
  by_cases h0 : n = 0
  · subst h0
    rw [if_pos (by omega)]
    obtain ⟨d, hd, d1, d2, dr⟩ := first_spec (Real.cos (θ / 2)) (Real.sin (θ / 2)) (by omega) h1 h2
    rw [hd]
    exact ⟨_, rfl, rfl, rfl, rfl, d1, d2, h1', h2', by simp only; omega, dr⟩
  · rw [if_neg (by omega), show (r.n + 1).toNat = n + 1 by omega]
    obtain ⟨d, hd, d1, d2, dr⟩ := scalarStep_spec (Real.cos (θ / 2)) (Real.sin (θ / 2)) (lmax := lmax) (n := n + 1) (d := r.d)
      (by omega) hn h1 h2 (fun k hk => rows k (by omega))
    rw [hd]
    exact ⟨_, rfl, rfl, rfl, rfl, d1, d2, h1', h2', by simp only; omega, dr⟩

theorem omp_step {lmax n : ℕ} {θ : ℝ} {r : Rec} {s : ℕ → List (ℕ × ℕ)} (hs : ∀ j, (s j).Perm (cells ((j + 1) / 2) j))
    (h : Good lmax θ n r) (hn : n + 1 ≤ lmax) :
    ∃ r', r.omp s = ok r' ∧ Good lmax θ (n + 1) r' := by
  obtain ⟨hp, hq, hsq, h1, h2, h1', h2', hn', rows⟩ := h
  unfold Rec.omp
  rw [if_neg (by omega), hp, hq, hsq]
  by_cases h0 : n = 0
  · subst h0
    rw [if_pos (by omega)]
    obtain ⟨d, hd, d1, d2, dr⟩ := first_spec (Real.cos (θ / 2)) (Real.sin (θ / 2)) (by omega) h1 h2
    rw [hd]
    exact ⟨_, rfl, rfl, rfl, rfl, d1, d2, h1', h2', by simp only; omega, dr⟩
  · rw [if_neg (by omega), show (r.n + 1).toNat = n + 1 by omega]
    obtain ⟨d, hd, d1, d2, d1', d2', dr⟩ := ompStep_spec (Real.cos (θ / 2)) (Real.sin (θ / 2)) (lmax := lmax) (n := n + 1)
      (d := r.d) (dd := r.dd) hs (by omega) hn h1 h2 h1' h2' (fun k hk => rows k (by omega))
    rw [hd]
    exact ⟨_, rfl, rfl, rfl, rfl, d1, d2, d1', d2', by simp only; omega, dr⟩

theorem zero_rows {θ : ℝ} {d : A2} : ∀ k ≤ 0, Row (Real.cos (θ / 2)) (Real.sin (θ / 2)) (d.upd 0 0 1) (2 * 0) k := by
  intro k hk i hi
  have h1 : k = 0 := by omega
  have h2 : i = 0 := by omega
  subst h1 h2
  rw [A2.upd_self, mul_zero, W_zero]

/-- `n` calls of `recurse` in a row. -/
noncomputable def calls (f : Rec → Res Rec) (r : Rec) : ℕ → Res Rec
  | 0 => ok r
  | n + 1 => calls f r n >>= f

theorem scalar_calls (lmax : ℕ) (θ : ℝ) (junk junk' : ℕ → ℕ → ℝ) {n : ℕ} (hn : n ≤ lmax) :
    ∃ r, calls Rec.scalar (Rec.new lmax θ junk junk') (n + 1) = ok r ∧ Good lmax θ n r := by
  induction n with
  | zero =>
    refine ⟨{ Rec.new lmax θ junk junk' with d := (Rec.new lmax θ junk junk').d.upd 0 0 1, n := 0 }, ?_, ?_⟩
    · unfold calls calls
      rw [ok_bind]
      unfold Rec.scalar Rec.new
      simp only [neg_add_cancel, if_true]
      rw [A2.put_ok' (k := 0) (i := 0) _ 0 0 rfl rfl (by simp) (by simp)]
      rfl
    · exact ⟨rfl, rfl, rfl, rfl, rfl, rfl, rfl, rfl, zero_rows⟩
  | succ n ih =>
    obtain ⟨r, hr, hg⟩ := ih (by omega)
    obtain ⟨r', hr', hg'⟩ := scalar_step hg hn
    exact ⟨r', by rw [calls, hr, ok_bind, hr'], hg'⟩

theorem omp_calls (lmax : ℕ) (θ : ℝ) (junk junk' : ℕ → ℕ → ℝ) {s : ℕ → List (ℕ × ℕ)}
    (hs : ∀ j, (s j).Perm (cells ((j + 1) / 2) j)) {n : ℕ} (hn : n ≤ lmax) :
    ∃ r, calls (Rec.omp s) (Rec.new lmax θ junk junk') (n + 1) = ok r ∧ Good lmax θ n r := by
  induction n with
  | zero =>
    refine ⟨{ Rec.new lmax θ junk junk' with d := (Rec.new lmax θ junk junk').d.upd 0 0 1, n := 0 }, ?_, ?_⟩
    · unfold calls calls
      rw [ok_bind]
      unfold Rec.omp Rec.new
      simp only [neg_add_cancel, if_true]
      rw [A2.put_ok' (k := 0) (i := 0) _ 0 0 rfl rfl (by simp) (by simp)]
      rfl
    · exact ⟨rfl, rfl, rfl, rfl, rfl, rfl, rfl, rfl, zero_rows⟩
  | succ n ih =>
    obtain ⟨r, hr, hg⟩ := ih (by omega)
    obtain ⟨r', hr', hg'⟩ := omp_step hs hg hn
    exact ⟨r', by rw [calls, hr, ok_bind, hr'], hg'⟩

end Verif.Risbo
