import Verif.Util.HalfPi

/-!
# Risbo recursion at π/2 (C76): the serial class
-/

namespace Verif.HalfPi

open Verif Res Verif.Risbo Verif.Num Polynomial

/-- `cos(π/4) = sin(π/4)`. -/
theorem pq_sq : pq * pq = 1 / 2 := by
  have : √(2 : ℝ) * √2 = 2 := Real.mul_self_sqrt (by norm_num)
  unfold pq; linear_combination (1 / 4) * this

theorem pq_eq : pq = √2 / 2 := by unfold pq; ring

/-- Equal `p` and `q`: reflecting the second index. -/
theorem W_flip (q : ℝ) {j k i : ℕ} (hk : k ≤ j) (hi : i ≤ j) : W q q j k (j - i) = (-1) ^ (j - k) * W q q j k i := by
  have e : P q q i (j - i) = (P q q (j - i) i).comp (C (-1) * X) := by
    unfold P
    simp only [mul_comp, pow_comp, add_comp, sub_comp, C_comp, X_comp, C_neg, C_1]
    rw [show (C q * (-1 * X) + C q : ℝ[X]) = C q - C q * X by ring, show (C q - C q * (-1 * X) : ℝ[X]) = C q * X + C q by ring, mul_comm]
  have hc : (P q q i (j - i)).coeff (j - k) = (-1) ^ (j - k) * (P q q (j - i) i).coeff (j - k) := by
    rw [e, comp_C_mul_X_coeff, mul_comm]
  have hn : nrm j (j - i) = nrm j i := by
    unfold nrm; rw [show j - (j - i) = i by omega, mul_comm]
  unfold W
  rw [hn, show j - (j - i) = i by omega, hc]
  ring

/-- Entries `0 … n` of row `k` are those of the matrix of spin `j/2` at π/2. -/
def HRow (d : A2) (n j k : ℕ) : Prop := ∀ i ≤ n, d.v k i = W pq pq j k i

theorem HRow_congr {d d' : A2} {n j k : ℕ} (h : HRow d n j k) (e : ∀ i, d'.v k i = d.v k i) : HRow d' n j k :=
  fun i hi => by rw [e, h i hi]

theorem flip_col (n i : ℕ) (hn : 2 ≤ n) (hi : i < n) : (-1 : ℝ) ^ i * W pq pq (2 * n - 2) i (n - 2) = W pq pq (2 * n - 2) i n := by
  have h := W_flip pq (j := 2 * n - 2) (k := i) (i := n) (by omega) (by omega)
  rw [show 2 * n - 2 - n = n - 2 by omega] at h
  rw [h, ← mul_assoc, ← pow_add, show i + (2 * n - 2 - i) = 2 * (n - 1) by omega, pow_mul]
  simp

theorem flip_row (n i : ℕ) (hn : 2 ≤ n) (hi : i ≤ n) : (-1 : ℝ) ^ i * W pq pq (2 * n - 2) (n - 2) i = W pq pq (2 * n - 2) n i := by
  have h1 := W_flip pq (j := 2 * n - 2) (k := n - 2) (i := i) (by omega) (by omega)
  have h2 := W_reflect pq pq (j := 2 * n - 2) (k := n) (i := i) (by omega) (by omega)
  rw [show 2 * n - 2 - n = n - 2 by omega] at h2
  rw [h2] at h1
  rw [show 2 * n - 2 - (n - 2) = n by omega] at h1
  have e : ∀ x y : ℝ, (-1 : ℝ) ^ (n + i) * x = (-1) ^ n * y → (-1) ^ i * y = x := by
    intro x y h
    rw [pow_add] at h
    rcases neg_one_pow_eq_or ℝ n with hn | hn <;> rcases neg_one_pow_eq_or ℝ i with hi | hi <;> rw [hn, hi] at h <;> rw [hi] <;> linarith
  exact e _ _ h1

theorem pad_spec {n : ℕ} {d : A2} (hn : 2 ≤ n) (h1 : n < d.n1) (h2 : n < d.n2) (hr : ∀ k < n, HRow d (n - 1) (2 * n - 2) k) :
    ∃ d', pad n d = ok d' ∧ d'.n1 = d.n1 ∧ d'.n2 = d.n2 ∧ ∀ k ≤ n, HRow d' n (2 * n - 2) k := by
  obtain ⟨r, hrr, hs, e1, e2, hold, hcol, hrow⟩ := forN_inv n (padBody n) (1, d)
    (fun t r => r.1 = (-1) ^ t ∧ r.2.n1 = d.n1 ∧ r.2.n2 = d.n2 ∧ (∀ k < n, ∀ i < n, r.2.v k i = W pq pq (2 * n - 2) k i) ∧
      (∀ k < t, r.2.v k n = W pq pq (2 * n - 2) k n) ∧ ∀ i < t, r.2.v n i = W pq pq (2 * n - 2) n i)
    (by
      refine ⟨by simp, rfl, rfl, fun k hk i hi => hr k hk i (by omega), by omega, by omega⟩)
    (by
      rintro t ⟨sg, d'⟩ ht ⟨hsg, e1, e2, hold, hcol, hrow⟩
      simp only at hsg e1 e2 hold hcol hrow
      unfold padBody
      dsimp only
      rw [A2.get_ok' t (n - 2) rfl (by omega) (by omega) (by omega)]
      simp only [ok_bind]
      rw [A2.put_ok _ (by omega) (by omega)]
      simp only [ok_bind]
      rw [A2.get_ok' (n - 2) t (by omega) rfl (by simp only [A2.upd_n1]; omega) (by simp only [A2.upd_n2]; omega)]
      simp only [ok_bind]
      rw [A2.put_ok _ (by simp only [A2.upd_n1]; omega) (by simp only [A2.upd_n2]; omega)]
      refine ⟨_, rfl, ?_, e1, e2, ?_, ?_, ?_⟩
      · rw [hsg, pow_succ]; ring
      · intro k hk i hi
        simp only
        rw [A2.upd_ne _ _ (Or.inl (by omega)), A2.upd_ne _ _ (Or.inr (by omega))]
        exact hold k hk i hi
      · intro k hk
        simp only
        rw [A2.upd_ne _ _ (Or.inl (by omega))]
        by_cases hkt : k = t
        · subst hkt
          rw [A2.upd_self, hold k ht _ (by omega), hsg]
          exact flip_col n k hn ht
        · rw [A2.upd_ne _ _ (Or.inl hkt)]
          exact hcol k (by omega)
      · intro i hi
        simp only
        by_cases hit : i = t
        · subst hit
          rw [A2.upd_self, A2.upd_ne _ _ (Or.inr (by omega)), hold _ (by omega) _ ht, hsg]
          exact flip_row n i hn (by omega)
        · rw [A2.upd_ne _ _ (Or.inr hit), A2.upd_ne _ _ (Or.inl (by omega))]
          exact hrow i (by omega))
  unfold pad
  rw [hrr]
  simp only [ok_bind]
  rw [A2.get_ok' (n - 2) n (by omega) rfl (by omega) (by omega)]
  simp only [ok_bind]
  rw [A2.put_ok _ (by omega) (by omega)]
  refine ⟨_, rfl, e1, e2, ?_⟩
  intro k hk i hi
  by_cases hc : k = n ∧ i = n
  · rw [hc.1, hc.2, A2.upd_self, hcol _ (by omega), hs]
    exact flip_row n n hn le_rfl
  · rw [A2.upd_ne _ _ (by omega)]
    by_cases hkn : k = n
    · subst hkn; exact hrow i (by omega)
    · by_cases hin : i = n
      · subst hin; exact hcol k (by omega)
      · exact hold k (by omega) i (by omega)

theorem W_top {j : ℕ} (hj : 1 ≤ j) {i : ℕ} (hi : i ≤ j) : pq / (j : ℝ) * √(j : ℝ) * (√((j - i : ℕ) : ℝ) * W pq pq (j - 1) 0 i -
    √(i : ℝ) * W pq pq (j - 1) 0 (i - 1)) = W pq pq j 0 i := by
  have h := W_mid pq pq (j := j) (k := 0) (i := i) (by omega) hi
  simp only [Nat.sub_zero, Nat.cast_zero, Real.sqrt_zero] at h
  rw [← h]; ring

theorem W_top0 {j : ℕ} (hj : 1 ≤ j) : pq * W pq pq (j - 1) 0 0 = W pq pq j 0 0 := by
  have hj0 : (j : ℝ) ≠ 0 := by have : 0 < j := by omega
                               positivity
  have h := W_rec pq pq (j := j) (k := 0) (i := 0) (by omega) (by omega)
  simp only [Nat.sub_zero, Nat.cast_zero, Real.sqrt_zero] at h
  apply mul_left_cancel₀ hj0
  rw [h]
  linear_combination (-pq * W pq pq (j - 1) 0 0) * sqj j

theorem W_in {j k i : ℕ} (hk : k < j) (hi : i ≤ j) :
    pq / (j : ℝ) * √((j - k : ℕ) : ℝ) * (√((j - i : ℕ) : ℝ) * W pq pq (j - 1) k i - √(i : ℝ) * W pq pq (j - 1) k (i - 1)) +
      pq / (j : ℝ) * √(k : ℝ) * (√((j - i : ℕ) : ℝ) * W pq pq (j - 1) (k - 1) i + √(i : ℝ) * W pq pq (j - 1) (k - 1) (i - 1)) =
    W pq pq j k i := by
  rw [← W_mid pq pq hk hi]; ring

theorem W_in0 {j k : ℕ} (hk : k < j) :
    √(j : ℝ) * (pq / (j : ℝ) * √(k : ℝ) * W pq pq (j - 1) (k - 1) 0 + pq / (j : ℝ) * √((j - k : ℕ) : ℝ) * W pq pq (j - 1) k 0) =
    W pq pq j k 0 := by
  have h := W_in (j := j) (k := k) (i := 0) hk (by omega)
  simp only [Nat.sub_zero, Nat.cast_zero, Real.sqrt_zero] at h
  rw [← h]; ring

theorem doLine0_spec {lmax n j : ℕ} {d : A2} (hj : 1 ≤ j) (hn : n ≤ j) (hjl : j ≤ 2 * lmax) (h1 : 0 < d.n1) (h2 : n < d.n2)
    (hr : HRow d n (j - 1) 0) :
    ∃ d', doLine0 (sqTab lmax) n j d = ok d' ∧ d'.n1 = d.n1 ∧ d'.n2 = d.n2 ∧ HRow d' n j 0 ∧
      ∀ k ≠ 0, ∀ i, d'.v k i = d.v k i := by
  unfold doLine0
  obtain ⟨r, hrr, e1, e2, hdone, htodo, hoth⟩ := forN_inv n (fun t d => line0Body (sqTab lmax) j ((n : ℤ) - t) d) d
    (fun t r => r.n1 = d.n1 ∧ r.n2 = d.n2 ∧ (∀ i, n - t < i → i ≤ n → r.v 0 i = W pq pq j 0 i) ∧
      (∀ i ≤ n - t, r.v 0 i = W pq pq (j - 1) 0 i) ∧ ∀ k ≠ 0, ∀ i, r.v k i = d.v k i)
    (⟨rfl, rfl, by omega, fun i hi => hr i (by omega), fun _ _ _ => rfl⟩)
    (by
      rintro t r ht ⟨e1, e2, hdone, htodo, hoth⟩
      unfold line0Body
      rw [rd_sq j rfl hjl, rd_sq (j - (n - t)) (by omega) (by omega), rd_sq (n - t) (by omega) (by omega)]
      simp only [ok_bind]
      rw [A2.get_ok' 0 (n - t) (by omega) (by omega) (by omega) (by omega)]
      simp only [ok_bind]
      rw [A2.get_ok' 0 (n - t - 1) (by omega) (by omega) (by omega) (by omega)]
      simp only [ok_bind]
      rw [A2.put_ok' _ 0 (n - t) (by omega) (by omega) (by omega) (by omega)]
      refine ⟨_, rfl, e1, e2, ?_, ?_, ?_⟩
      · intro i hi hi'
        by_cases hit : i = n - t
        · subst hit
          rw [A2.upd_self, htodo _ le_rfl, htodo _ (by omega)]
          exact W_top hj (by omega)
        · rw [A2.upd_ne _ _ (Or.inr hit)]
          exact hdone i (by omega) hi'
      · intro i hi
        rw [A2.upd_ne _ _ (Or.inr (by omega))]
        exact htodo i (by omega)
      · intro k hk i
        rw [A2.upd_ne _ _ (Or.inl hk)]
        exact hoth k hk i)
  rw [hrr]
  simp only [ok_bind]
  rw [A2.get_ok' 0 0 (by omega) (by omega) (by omega) (by omega)]
  simp only [ok_bind]
  rw [A2.put_ok' _ 0 0 (by omega) (by omega) (by omega) (by omega)]
  refine ⟨_, rfl, e1, e2, ?_, ?_⟩
  · intro i hi
    by_cases hi0 : i = 0
    · subst hi0
      rw [A2.upd_self, htodo _ (by omega)]
      exact W_top0 hj
    · rw [A2.upd_ne _ _ (Or.inr hi0)]
      exact hdone i (by omega) hi
  · intro k hk i
    rw [A2.upd_ne _ _ (Or.inl hk)]
    exact hoth k hk i

theorem doLine_spec {lmax n j k : ℕ} {d : A2} (hk : 1 ≤ k) (hkj : k < j) (hn : n ≤ j) (hjl : j ≤ 2 * lmax) (h1 : k < d.n1)
    (h2 : n < d.n2) (hr' : HRow d n (j - 1) (k - 1)) (hr : HRow d n (j - 1) k) :
    ∃ d', doLine (sqTab lmax) n j k d = ok d' ∧ d'.n1 = d.n1 ∧ d'.n2 = d.n2 ∧ HRow d' n j k ∧
      ∀ k' ≠ k, ∀ i, d'.v k' i = d.v k' i := by
  unfold doLine
  rw [rd_sq (j - k) (by omega) (by omega), rd_sq k rfl (by omega)]
  simp only [ok_bind]
  set t1 := pq / (j : ℝ) * √((j - k : ℕ) : ℝ) with ht1
  set t2 := pq / (j : ℝ) * √(k : ℝ) with ht2
  obtain ⟨r, hrr, e1, e2, hdone, htodo, hoth⟩ := forN_inv n (fun t d => lineBody (sqTab lmax) j k t1 t2 ((n : ℤ) - t) d) d
    (fun t r => r.n1 = d.n1 ∧ r.n2 = d.n2 ∧ (∀ i, n - t < i → i ≤ n → r.v k i = W pq pq j k i) ∧
      (∀ i ≤ n - t, r.v k i = W pq pq (j - 1) k i) ∧ ∀ k' ≠ k, ∀ i, r.v k' i = d.v k' i)
    (⟨rfl, rfl, by omega, fun i hi => hr i (by omega), fun _ _ _ => rfl⟩)
    (by
      rintro t r ht ⟨e1, e2, hdone, htodo, hoth⟩
      unfold lineBody
      rw [rd_sq (j - (n - t)) (by omega) (by omega), rd_sq (n - t) (by omega) (by omega)]
      simp only [ok_bind]
      rw [A2.get_ok' k (n - t) (by omega) (by omega) (by omega) (by omega)]
      simp only [ok_bind]
      rw [A2.get_ok' k (n - t - 1) (by omega) (by omega) (by omega) (by omega)]
      simp only [ok_bind]
      rw [A2.get_ok' (k - 1) (n - t) (by omega) (by omega) (by omega) (by omega)]
      simp only [ok_bind]
      rw [A2.get_ok' (k - 1) (n - t - 1) (by omega) (by omega) (by omega) (by omega)]
      simp only [ok_bind]
      rw [A2.put_ok' _ k (n - t) (by omega) (by omega) (by omega) (by omega)]
      refine ⟨_, rfl, e1, e2, ?_, ?_, ?_⟩
      · intro i hi hi'
        by_cases hit : i = n - t
        · subst hit
          rw [A2.upd_self, htodo _ le_rfl, htodo _ (by omega), hoth _ (by omega), hoth _ (by omega),
            hr' _ (by omega), hr' _ (by omega), ht1, ht2]
          exact W_in hkj (by omega)
        · rw [A2.upd_ne _ _ (Or.inr hit)]
          exact hdone i (by omega) hi'
      · intro i hi
        rw [A2.upd_ne _ _ (Or.inr (by omega))]
        exact htodo i (by omega)
      · intro k' hk i
        rw [A2.upd_ne _ _ (Or.inl hk)]
        exact hoth k' hk i)
  rw [hrr]
  simp only [ok_bind]
  rw [rd_sq j rfl hjl]
  simp only [ok_bind]
  rw [A2.get_ok' (k - 1) 0 (by omega) (by omega) (by omega) (by omega)]
  simp only [ok_bind]
  rw [A2.get_ok' k 0 (by omega) (by omega) (by omega) (by omega)]
  simp only [ok_bind]
  rw [A2.put_ok' _ k 0 (by omega) (by omega) (by omega) (by omega)]
  refine ⟨_, rfl, e1, e2, ?_, ?_⟩
  · intro i hi
    by_cases hi0 : i = 0
    · subst hi0
      rw [A2.upd_self, htodo _ (by omega), hoth _ (by omega), hr' _ (by omega), ht1, ht2]
      exact W_in0 hkj
    · rw [A2.upd_ne _ _ (Or.inr hi0)]
      exact hdone i (by omega) hi
  · intro k' hk i
    rw [A2.upd_ne _ _ (Or.inl hk)]
    exact hoth k' hk i

theorem scalarStep_spec {lmax n : ℕ} {d : A2} (hn : 2 ≤ n) (hl : n ≤ lmax) (h1 : n < d.n1)
    (h2 : n < d.n2) (hr : ∀ k < n, HRow d (n - 1) (2 * n - 2) k) :
    ∃ d', scalarStep (sqTab lmax) n d = ok d' ∧ d'.n1 = d.n1 ∧ d'.n2 = d.n2 ∧ ∀ k ≤ n, HRow d' n (2 * n) k := by
  obtain ⟨a, ha, a1, a2, ar⟩ := pad_spec hn h1 h2 hr
  obtain ⟨b, hb, b1, b2, br, bo⟩ := doLine_spec (lmax := lmax) (n := n) (j := 2 * n - 1) (k := n) (d := a) (by omega) (by omega)
    (by omega) (by omega) (by omega) (by omega) (ar _ (by omega)) (ar _ (by omega))
  unfold scalarStep
  rw [ha]; simp only [ok_bind]
  rw [hb]; simp only [ok_bind]
  obtain ⟨c, hc, c1, c2, clow, cmid, chigh⟩ := forN_inv (n - 1) (rowBody (sqTab lmax) n) b
    (fun t r => r.n1 = d.n1 ∧ r.n2 = d.n2 ∧ (∀ k < n - t, HRow r n (2 * n - 2) k) ∧
      HRow r n (2 * n - 1) (n - t) ∧ ∀ k, n - t < k → k ≤ n → HRow r n (2 * n) k)
    (by
      refine ⟨by omega, by omega, ?_, br, by omega⟩
      intro k hk
      exact HRow_congr (ar k (by omega)) (bo k (by omega)))
    (by
      rintro t r ht ⟨e1, e2, hlow, hmid, hhigh⟩
      obtain ⟨x, hx, x1, x2, xr, xo⟩ := doLine_spec (lmax := lmax) (n := n) (j := 2 * n - 1) (k := n - t - 1) (d := r) (by omega)
        (by omega) (by omega) (by omega) (by omega) (by omega) (hlow _ (by omega)) (hlow _ (by omega))
      obtain ⟨y, hy, y1, y2, yr, yo⟩ := doLine_spec (lmax := lmax) (n := n) (j := 2 * n) (k := n - t) (d := x) (by omega)
        (by omega) (by omega) (by omega) (by omega) (by omega) xr (HRow_congr hmid (xo _ (by omega)))
      unfold rowBody
      rw [hx]; simp only [ok_bind]
      refine ⟨y, hy, by omega, by omega, ?_, ?_, ?_⟩
      · intro k hk
        exact HRow_congr (hlow k (by omega)) (fun i => by rw [yo k (by omega), xo k (by omega)])
      · rw [show n - (t + 1) = n - t - 1 by omega]
        exact HRow_congr xr (yo _ (by omega))
      · intro k hk hk'
        by_cases hkt : k = n - t
        · subst hkt; exact yr
        · exact HRow_congr (hhigh k (by omega) hk') (fun i => by rw [yo k (by omega), xo k (by omega)]))
  rw [hc]; simp only [ok_bind]
  rw [show n - (n - 1) = 1 by omega] at clow cmid chigh
  obtain ⟨x, hx, x1, x2, xr, xo⟩ := doLine0_spec (lmax := lmax) (n := n) (j := 2 * n - 1) (d := c) (by omega) (by omega) (by omega)
    (by omega) (by omega) (clow 0 (by omega))
  rw [hx]; simp only [ok_bind]
  obtain ⟨y, hy, y1, y2, yr, yo⟩ := doLine_spec (lmax := lmax) (n := n) (j := 2 * n) (k := 1) (d := x) (by omega)
    (by omega) (by omega) (by omega) (by omega) (by omega) xr (HRow_congr cmid (xo 1 (by omega)))
  rw [hy]; simp only [ok_bind]
  obtain ⟨z, hz, z1, z2, zr, zo⟩ := doLine0_spec (lmax := lmax) (n := n) (j := 2 * n) (d := y) (by omega) (by omega) (by omega)
    (by omega) (by omega) (HRow_congr xr (yo 0 (by omega)))
  refine ⟨z, hz, by omega, by omega, ?_⟩
  intro k hk
  by_cases k0 : k = 0
  · subst k0; exact zr
  · by_cases k1 : k = 1
    · subst k1; exact HRow_congr yr (zo 1 k0)
    · exact HRow_congr (chigh k (by omega) hk) (fun i => by rw [zo k k0, yo k k1, xo k k0])

theorem first_spec {d : A2} (h1 : 1 < d.n1) (h2 : 1 < d.n2) :
    ∃ d', first d = ok d' ∧ d'.n1 = d.n1 ∧ d'.n2 = d.n2 ∧ ∀ k ≤ 1, HRow d' 1 2 k := by
  unfold first
  rw [A2.put_ok' (k := 0) (i := 0) _ 0 0 rfl rfl (by omega) (by omega)]
  simp only [ok_bind]
  rw [A2.put_ok' (k := 0) (i := 1) _ 0 1 rfl rfl (by simp only [A2.upd_n1]; omega) (by simp only [A2.upd_n2]; omega)]
  simp only [ok_bind]
  rw [A2.put_ok' (k := 1) (i := 0) _ 1 0 rfl rfl (by simp only [A2.upd_n1]; omega) (by simp only [A2.upd_n2]; omega)]
  simp only [ok_bind]
  rw [A2.put_ok' (k := 1) (i := 1) _ 1 1 rfl rfl (by simp only [A2.upd_n1]; omega) (by simp only [A2.upd_n2]; omega)]
  refine ⟨_, rfl, rfl, rfl, ?_⟩
  obtain ⟨d1, hd, -, -, hr⟩ := Risbo.first_spec pq pq (lmax := 1) (d := ⟨2, 3, fun _ _ => 0⟩) (by omega) rfl rfl
  have s22 : √(2 : ℝ) * √2 = 2 := Real.mul_self_sqrt (by norm_num)
  have hpq := pq_sq
  have hs : pq * √2 = 1 := by rw [pq_eq]; linear_combination (1 / 2) * s22
  unfold Risbo.first at hd
  rw [A2.put_ok' (k := 0) (i := 0) _ 0 0 rfl rfl (by simp) (by simp)] at hd
  simp only [ok_bind] at hd
  rw [rd_sq (i := 2) 2 rfl (by omega)] at hd
  simp only [ok_bind] at hd
  rw [A2.put_ok' (k := 0) (i := 1) _ 0 1 rfl rfl (by simp) (by simp)] at hd
  simp only [ok_bind] at hd
  rw [A2.put_ok' (k := 0) (i := 2) _ 0 2 rfl rfl (by simp) (by simp)] at hd
  simp only [ok_bind] at hd
  rw [A2.get_ok' (k := 0) (i := 1) 0 1 rfl rfl (by simp) (by simp)] at hd
  simp only [ok_bind] at hd
  rw [A2.put_ok' (k := 1) (i := 0) _ 1 0 rfl rfl (by simp) (by simp)] at hd
  simp only [ok_bind] at hd
  rw [A2.put_ok' (k := 1) (i := 1) _ 1 1 rfl rfl (by simp) (by simp)] at hd
  simp only [ok_bind] at hd
  rw [A2.get_ok' (k := 0) (i := 1) 0 1 rfl rfl (by simp) (by simp)] at hd
  simp only [ok_bind] at hd
  rw [A2.put_ok' (k := 1) (i := 2) _ 1 2 rfl rfl (by simp) (by simp)] at hd
  injection hd with hd
  subst hd
  intro k hk i hi
  rw [← hr k hk i (by omega)]
  have hk' : k = 0 ∨ k = 1 := by omega
  have hi' : i = 0 ∨ i = 1 := by omega
  rcases hk' with rfl | rfl <;> rcases hi' with rfl | rfl <;> simp [A2.upd]
  · rw [hpq]; norm_num
  · rw [mul_assoc, hs, mul_one]
  · rw [mul_assoc, hs, mul_one]

/-- What holds after `n + 1` calls of the serial class. -/
structure Good (lmax n : ℕ) (r : HRec) : Prop where
  hsq : r.sqt = sqTab lmax
  h1 : r.d.n1 = lmax + 2
  h2 : r.d.n2 = lmax + 2
  hn : r.n = n
  rows : ∀ k ≤ n, HRow r.d n (2 * n) k

theorem scalar_step {lmax n : ℕ} {r : HRec} (h : Good lmax n r) (hn : n + 1 ≤ lmax ∨ n = 0) :
    ∃ r', r.scalar = ok r' ∧ Good lmax (n + 1) r' := by
  obtain ⟨hsq, h1, h2, hn', rows⟩ := h
  unfold HRec.scalar scalarTable
  rw [if_neg (by omega), hsq]
  by_cases h0 : n = 0
  · subst h0
    rw [if_pos (by omega)]
    obtain ⟨d, hd, d1, d2, dr⟩ := first_spec (d := r.d) (by omega) (by omega)
    rw [hd]
    exact ⟨_, rfl, rfl, by simp only; omega, by simp only; omega, by simp only; omega, dr⟩
  · rw [if_neg (by omega), show (r.n + 1).toNat = n + 1 by omega]
    obtain ⟨d, hd, d1, d2, dr⟩ := scalarStep_spec (lmax := lmax) (n := n + 1) (d := r.d)
      (by omega) (by omega) (by omega) (by omega) (fun k hk => rows k (by omega))
    rw [hd]
    exact ⟨_, rfl, rfl, by simp only; omega, by simp only; omega, by simp only; omega, dr⟩

theorem zero_rows {d : A2} : ∀ k ≤ 0, HRow (d.upd 0 0 1) 0 (2 * 0) k := by
  intro k hk i hi
  have h1 : k = 0 := by omega
  have h2 : i = 0 := by omega
  subst h1 h2
  rw [A2.upd_self, mul_zero, W_zero]

theorem scalar_calls (lmax : ℕ) (junk junk' : ℕ → ℕ → ℝ) {n : ℕ} (hn : n ≤ max lmax 1) :
    ∃ r, calls HRec.scalar (HRec.new lmax junk junk') (n + 1) = ok r ∧ Good lmax n r := by
  induction n with
  | zero =>
    refine ⟨{ HRec.new lmax junk junk' with d := (HRec.new lmax junk junk').d.upd 0 0 1, n := 0 }, ?_, ?_⟩
    · unfold calls calls
      rw [ok_bind]
      unfold HRec.scalar scalarTable HRec.new
      simp only [neg_add_cancel, if_true]
      rw [A2.put_ok' (k := 0) (i := 0) _ 0 0 rfl rfl (by simp) (by simp)]
      rfl
    · exact ⟨rfl, rfl, rfl, rfl, zero_rows⟩
  | succ n ih =>
    obtain ⟨r, hr, hg⟩ := ih (by omega)
    obtain ⟨r', hr', hg'⟩ := scalar_step hg (by omega)
    exact ⟨r', by rw [calls, hr, ok_bind, hr'], hg'⟩

end Verif.HalfPi
