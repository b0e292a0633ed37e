import Verif.Tod.Weights
import Mathlib.Analysis.Calculus.LocalExtr.Rolle
import Mathlib.Analysis.Calculus.Deriv.Polynomial
import Mathlib.Analysis.Calculus.Deriv.Mul
import Mathlib.Analysis.Calculus.Deriv.Comp
import Mathlib.Analysis.SpecialFunctions.Complex.CircleMap
import Mathlib.Data.Nat.Choose.Sum

/-!
# Error of Lagrange interpolation on the nodes `0, 1, …, N-1` (for C61)

Mathematics only: nothing here mentions the program except the weights `wgt` (which C12 identifies with the Lagrange basis).
-/

namespace Verif.Num
open Finset Polynomial

/-- `f n` is the `n`-th derivative of `f 0`. -/
def Tower (f : ℕ → ℝ → ℝ) : Prop := ∀ n t, HasDerivAt (f n) (f (n + 1) t) t

theorem Tower.shift {f : ℕ → ℝ → ℝ} (h : Tower f) : Tower (fun n => f (n + 1)) := fun n t => h (n + 1) t

theorem Tower.sub {f g : ℕ → ℝ → ℝ} (hf : Tower f) (hg : Tower g) : Tower (fun n t => f n t - g n t) :=
  fun n t => (hf n t).sub (hg n t)

theorem Tower.poly (p : ℝ[X]) : Tower (fun n t => (derivative^[n] p).eval t) := fun n t => by
  have := (derivative^[n] p).hasDerivAt t
  rwa [← Function.iterate_succ_apply' derivative n p] at this

/-- Rolle, `n` times. -/
theorem rolle_tower : ∀ (n : ℕ) (f : ℕ → ℝ → ℝ) (z : ℕ → ℝ), Tower f → (∀ i < n, z i < z (i + 1)) → (∀ i ≤ n, f 0 (z i) = 0) →
    ∃ ξ, f n ξ = 0 := by
  intro n
  induction n with
  | zero => intro f z _ _ h; exact ⟨z 0, h 0 le_rfl⟩
  | succ n ih =>
    intro f z hf hz h0
    have hex : ∀ i, ∃ y, i ≤ n → z i < y ∧ y < z (i + 1) ∧ f 1 y = 0 := by
      intro i
      by_cases hi : i ≤ n
      · have hlt := hz i (by omega)
        have hc : ContinuousOn (f 0) (Set.Icc (z i) (z (i + 1))) := fun t _ => (hf 0 t).continuousAt.continuousWithinAt
        obtain ⟨c, hc1, hc2⟩ := exists_hasDerivAt_eq_zero hlt hc ((h0 i (by omega)).trans (h0 (i + 1) (by omega)).symm)
          (fun t _ => hf 0 t)
        exact ⟨c, fun _ => ⟨hc1.1, hc1.2, hc2⟩⟩
      · exact ⟨0, fun h => absurd h hi⟩
    choose y hy using hex
    obtain ⟨ξ, hξ⟩ := ih (fun n => f (n + 1)) y hf.shift
      (fun i hi => (hy i (by omega)).2.1.trans (hy (i + 1) (by omega)).1)
      (fun i hi => (hy i hi).2.2)
    exact ⟨ξ, hξ⟩

theorem wgt_eq_basis {N : ℕ} (x : ℝ) {m : ℕ} (hm : m < N) :
    Tod.wgt N x m = (Lagrange.basis (range N) (fun i : ℕ => (i : ℝ)) m).eval x := by
  rw [Tod.wgt_real N x m hm]
  unfold Lagrange.basis
  rw [eval_prod]
  apply prod_congr rfl
  intro k _
  unfold Lagrange.basisDivisor
  rw [eval_mul, eval_C, eval_sub, eval_X, eval_C, div_eq_mul_inv, mul_comm]

/-- The classical error formula, for a point strictly between two integers. -/
theorem lagrange_error {f : ℕ → ℝ → ℝ} (hf : Tower f) {N q : ℕ} (hq : q < N) {x : ℝ} (h0 : (q : ℝ) < x) (h1 : x < q + 1) :
    ∃ ξ, f 0 x - ∑ m ∈ range N, Tod.wgt N x m * f 0 m = f N ξ / N.factorial * ∏ k ∈ range N, (x - k) := by
  set v : ℕ → ℝ := fun i => (i : ℝ) with hv
  have hinj : Set.InjOn v (range N : Finset ℕ) := fun a _ b _ h => by simpa [hv] using h
  set p := Lagrange.interpolate (range N) v (fun m => f 0 m) with hp
  have hpx : p.eval x = ∑ m ∈ range N, Tod.wgt N x m * f 0 m := by
    rw [hp, Lagrange.interpolate_apply, eval_finset_sum]
    apply sum_congr rfl
    intro m hm
    rw [eval_mul, eval_C, wgt_eq_basis x (mem_range.mp hm), mul_comm]
  set w := Lagrange.nodal (range N) v with hw
  have hwx : ∀ t, w.eval t = ∏ k ∈ range N, (t - k) := fun t => by rw [hw, Lagrange.eval_nodal]
  have hne : w.eval x ≠ 0 := by
    rw [hwx, prod_ne_zero_iff]
    intro k _ hk
    have hxk : x = k := by linarith
    rw [hxk] at h0 h1
    have a : q < k := by exact_mod_cast h0
    have b : k < q + 1 := by exact_mod_cast h1
    omega
  set K := (f 0 x - p.eval x) / w.eval x with hK
  set Q := p + C K * w with hQ
  have hG := hf.sub (Tower.poly Q)
  let z : ℕ → ℝ := fun i => if i ≤ q then (i : ℝ) else if i = q + 1 then x else ((i - 1 : ℕ) : ℝ)
  have hz : ∀ i < N, z i < z (i + 1) := by
    intro i hi
    simp only [z]
    by_cases a : i + 1 ≤ q
    · rw [if_pos (by omega), if_pos a]; push_cast; linarith
    · rw [if_neg a]
      by_cases b : i = q
      · rw [if_pos (by omega), if_pos (by omega), b]; exact h0
      · rw [if_neg (by omega), if_neg (show ¬ i + 1 = q + 1 by omega)]
        by_cases c : i = q + 1
        · rw [if_pos c, c]; push_cast; simpa using h1
        · rw [if_neg c]
          have : i - 1 < i + 1 - 1 := by omega
          exact_mod_cast this
  have hnode : ∀ k < N, f 0 (k : ℝ) - Q.eval (k : ℝ) = 0 := by
    intro k hk
    have a : p.eval (v k) = f 0 k := Lagrange.eval_interpolate_at_node _ hinj (mem_range.mpr hk)
    have b : w.eval (v k) = 0 := Lagrange.eval_nodal_at_node (mem_range.mpr hk)
    rw [hQ, eval_add, eval_mul, eval_C, show ((k : ℝ)) = v k from rfl, a, b]; simp [hv]
  have hzero : ∀ i ≤ N, f 0 (z i) - Q.eval (z i) = 0 := by
    intro i hi
    simp only [z]
    by_cases a : i ≤ q
    · rw [if_pos a]; exact hnode i (by omega)
    · rw [if_neg a]
      by_cases b : i = q + 1
      · rw [if_pos b, hQ, eval_add, eval_mul, eval_C, hK, div_mul_cancel₀ _ hne]; ring
      · rw [if_neg b]; exact hnode (i - 1) (by omega)
  obtain ⟨ξ, hξ⟩ := rolle_tower N _ z hG hz hzero
  refine ⟨ξ, ?_⟩
  have hd : (derivative^[N] Q).eval ξ = K * N.factorial := by
    have hpd : derivative^[N] p = 0 := by
      apply iterate_derivative_eq_zero
      by_cases hp0 : p = 0
      · rw [hp0]; simp; omega
      · have := Lagrange.degree_interpolate_lt (r := fun m : ℕ => f 0 m) hinj
        rw [← hp, card_range] at this
        exact (natDegree_lt_iff_degree_lt hp0).mpr this
    have hwd : derivative^[N] w = C (N.factorial : ℝ) := by
      have hmon : w.Monic := Lagrange.nodal_monic
      have hdeg : w.natDegree = N := by rw [hw, Lagrange.natDegree_nodal, card_range]
      have h2 := natDegree_iterate_derivative w N
      have h3 : (derivative^[N] w).natDegree = 0 := by omega
      rw [eq_C_of_natDegree_eq_zero h3]
      congr 1
      rw [coeff_iterate_derivative, Nat.zero_add]
      have : w.coeff N = 1 := by rw [← hdeg]; exact hmon
      rw [this, Nat.descFactorial_self]; simp
    rw [hQ, iterate_map_add, hpd, zero_add, iterate_derivative_C_mul, hwd, eval_mul, eval_C, eval_C]
  have e1 : f N ξ = K * N.factorial := by
    have : f N ξ - (derivative^[N] Q).eval ξ = 0 := hξ
    rw [hd] at this; linarith
  have hfac : (N.factorial : ℝ) ≠ 0 := by positivity
  rw [← hpx, e1, mul_div_cancel_right₀ _ hfac, ← hwx, hK, div_mul_cancel₀ _ hne]

/-- Distances to the nodes. -/
theorem prod_dist {N q : ℕ} (hq : q < N) {x : ℝ} (h0 : (q : ℝ) ≤ x) (h1 : x ≤ q + 1) (S : Finset ℕ) (hS : S ⊆ range N) :
    ∏ k ∈ S, |x - k| ≤ (q + 1).factorial * (N - 1 - q).factorial := by
  let g : ℕ → ℝ := fun k => if k ≤ q then ((q + 1 - k : ℕ) : ℝ) else ((k - q : ℕ) : ℝ)
  have hg1 : ∀ k, 1 ≤ g k := by
    intro k
    simp only [g]
    split
    · exact_mod_cast (by omega : 1 ≤ q + 1 - k)
    · exact_mod_cast (by omega : 1 ≤ k - q)
  have hle : ∀ k : ℕ, |x - (k : ℝ)| ≤ g k := by
    intro k
    simp only [g]
    split
    next h =>
      have hk : (k : ℝ) ≤ q := by exact_mod_cast h
      rw [Nat.cast_sub (by omega), abs_of_nonneg (by linarith)]; push_cast; linarith
    next h =>
      have hk : (q : ℝ) + 1 ≤ k := by exact_mod_cast (by omega : q + 1 ≤ k)
      rw [Nat.cast_sub (by omega), abs_of_nonpos (by linarith)]; linarith
  calc ∏ k ∈ S, |x - k| ≤ ∏ k ∈ S, g k := prod_le_prod (fun k _ => abs_nonneg _) (fun k _ => hle k)
    _ ≤ ∏ k ∈ range N, g k := by
        rw [← prod_sdiff hS]
        have : 1 ≤ ∏ k ∈ range N \ S, g k := by
          have := prod_le_prod (s := range N \ S) (f := fun _ => (1 : ℝ)) (g := g) (fun k _ => zero_le_one) (fun k _ => hg1 k)
          simpa using this
        have h2 : 0 ≤ ∏ k ∈ S, g k := prod_nonneg (fun k _ => le_trans zero_le_one (hg1 k))
        nlinarith
    _ = (q + 1).factorial * (N - 1 - q).factorial := by
        obtain ⟨r, rfl⟩ : ∃ r, N = (q + 1) + r := ⟨N - (q + 1), by omega⟩
        rw [prod_range_add]
        have e1 : ∏ k ∈ range (q + 1), g k = ((q + 1).factorial : ℝ) := by
          rw [← prod_range_reflect, ← prod_range_add_one_eq_factorial, Nat.cast_prod]
          apply prod_congr rfl
          intro k hk
          rw [mem_range] at hk
          simp only [g]
          rw [if_pos (by omega)]
          congr 1; omega
        have e2 : ∏ k ∈ range r, g (q + 1 + k) = (r.factorial : ℝ) := by
          rw [← prod_range_add_one_eq_factorial, Nat.cast_prod]
          apply prod_congr rfl
          intro k _
          simp only [g]
          rw [if_neg (by omega)]
          congr 1; omega
        rw [e1, e2]
        congr 2
        congr 1
        omega

/-- Interpolation error of a function with bounded `N`-th derivative at a point of the cell `[q, q+1]`. -/
theorem lagrange_bound {f : ℕ → ℝ → ℝ} (hf : Tower f) {N q : ℕ} (hq : q < N) {x : ℝ} (h0 : (q : ℝ) ≤ x) (h1 : x < q + 1)
    {M : ℝ} (hM : ∀ t, |f N t| ≤ M) :
    |f 0 x - ∑ m ∈ range N, Tod.wgt N x m * f 0 m| ≤ M / N.choose (q + 1) := by
  have hM0 : 0 ≤ M := (abs_nonneg _).trans (hM 0)
  rcases eq_or_lt_of_le h0 with he | hlt
  · rw [← he]
    have : ∑ m ∈ range N, Tod.wgt N (q : ℝ) m * f 0 m = f 0 q := by
      rw [sum_eq_single q]
      · rw [wgt_eq_basis _ hq, Lagrange.eval_basis_self (fun a _ b _ h => by simpa using h) (mem_range.mpr hq), one_mul]
      · intro m hm hne
        rw [wgt_eq_basis _ (mem_range.mp hm)]
        have := Lagrange.eval_basis_of_ne (s := range N) (v := fun i : ℕ => (i : ℝ)) hne (mem_range.mpr hq)
        rw [this, zero_mul]
      · intro h; exact absurd (mem_range.mpr hq) h
    rw [this, sub_self, abs_zero]
    positivity
  · obtain ⟨ξ, hξ⟩ := lagrange_error hf hq hlt h1
    rw [hξ, abs_mul, abs_div, abs_prod, abs_of_pos (show (0 : ℝ) < N.factorial by positivity)]
    have hp := prod_dist hq h0 h1.le (range N) (Subset.refl _)
    have hch : ((N.choose (q + 1) : ℕ) : ℝ) * (q + 1).factorial * (N - 1 - q).factorial = N.factorial := by
      have := Nat.choose_mul_factorial_mul_factorial (show q + 1 ≤ N by omega)
      rw [show N - (q + 1) = N - 1 - q by omega] at this
      exact_mod_cast this
    have hchpos : (0 : ℝ) < (N.choose (q + 1) : ℕ) := by exact_mod_cast Nat.choose_pos (by omega : q + 1 ≤ N)
    have hf1 : (0 : ℝ) < (q + 1).factorial * (N - 1 - q).factorial := by positivity
    calc |f N ξ| / N.factorial * ∏ k ∈ range N, |x - k| ≤ M / N.factorial * ((q + 1).factorial * (N - 1 - q).factorial) := by
          apply mul_le_mul _ hp (prod_nonneg fun k _ => abs_nonneg _) (by positivity)
          exact div_le_div_of_nonneg_right (hM ξ) (by positivity)
      _ = M / N.choose (q + 1) := by
          rw [← hch]
          field_simp

/-- Sum of the magnitudes of the weights. -/
theorem lebesgue_bound {N q : ℕ} (hq : q < N) {x : ℝ} (h0 : (q : ℝ) ≤ x) (h1 : x ≤ q + 1) :
    ∑ m ∈ range N, |Tod.wgt N x m| ≤ N * 2 ^ (N - 1) / N.choose (q + 1) := by
  have hch : ((N.choose (q + 1) : ℕ) : ℝ) * (q + 1).factorial * (N - 1 - q).factorial = N.factorial := by
    have := Nat.choose_mul_factorial_mul_factorial (show q + 1 ≤ N by omega)
    rw [show N - (q + 1) = N - 1 - q by omega] at this
    exact_mod_cast this
  have hchpos : (0 : ℝ) < (N.choose (q + 1) : ℕ) := by exact_mod_cast Nat.choose_pos (by omega : q + 1 ≤ N)
  set B : ℝ := (q + 1).factorial * (N - 1 - q).factorial with hB
  have hBpos : 0 < B := by positivity
  have hw : ∀ m ∈ range N, |Tod.wgt N x m| ≤ B / (N - 1).factorial * ((N - 1).choose m : ℕ) := by
    intro m hm
    rw [mem_range] at hm
    rw [Tod.wgt_real N x m hm, abs_prod]
    simp only [abs_div]
    rw [prod_div_distrib]
    have hnum := prod_dist hq h0 h1 ((range N).erase m) (erase_subset _ _)
    have hden : ∏ k ∈ (range N).erase m, |(m : ℝ) - k| = m.factorial * (N - 1 - m).factorial := by
      have hsplit : (range N).erase m = range m ∪ Ico (m + 1) N := by
        ext k; simp only [mem_erase, mem_range, mem_union, mem_Ico]; omega
      have hdisj : Disjoint (range m) (Ico (m + 1) N) := by
        rw [Finset.disjoint_left]; intro k h1 h2; simp only [mem_range, mem_Ico] at h1 h2; omega
      rw [hsplit, prod_union hdisj]
      congr 1
      · rw [← prod_range_reflect, ← prod_range_add_one_eq_factorial, Nat.cast_prod]
        apply prod_congr rfl
        intro k hk
        rw [mem_range] at hk
        rw [show ((m - 1 - k : ℕ) : ℝ) = m - 1 - k by rw [Nat.cast_sub (by omega), Nat.cast_sub (by omega)]; push_cast; ring]
        rw [abs_of_nonneg] <;> push_cast
        · ring
        · have : (0:ℝ) ≤ k := by positivity
          linarith
      · rw [prod_Ico_eq_prod_range, ← prod_range_add_one_eq_factorial, Nat.cast_prod, show N - (m + 1) = N - 1 - m by omega]
        apply prod_congr rfl
        intro k _
        rw [abs_of_nonpos (by push_cast; have : (0:ℝ) ≤ k := by positivity
                              linarith)]
        push_cast; ring
    rw [hden]
    have hc2 : (((N - 1).choose m : ℕ) : ℝ) * m.factorial * (N - 1 - m).factorial = (N - 1).factorial := by
      exact_mod_cast Nat.choose_mul_factorial_mul_factorial (show m ≤ N - 1 by omega)
    have e : B / (N - 1).factorial * ((N - 1).choose m : ℕ) = B / (m.factorial * (N - 1 - m).factorial) := by
      rw [← hc2]
      have p1 : (((N - 1).choose m : ℕ) : ℝ) ≠ 0 := by
        have := Nat.choose_pos (show m ≤ N - 1 by omega); positivity
      field_simp
    rw [e]
    exact div_le_div_of_nonneg_right hnum (by positivity)
  refine (sum_le_sum hw).trans (le_of_eq ?_)
  rw [← mul_sum]
  have h2 : ∑ m ∈ range N, (((N - 1).choose m : ℕ) : ℝ) = 2 ^ (N - 1) := by
    have := Nat.sum_range_choose (N - 1)
    rw [show N - 1 + 1 = N by omega] at this
    exact_mod_cast this
  rw [h2]
  have hN : (N.factorial : ℝ) = N * (N - 1).factorial := by
    exact_mod_cast (Nat.mul_factorial_pred (by omega : N ≠ 0)).symm
  have : B = N * (N - 1).factorial / N.choose (q + 1) := by
    rw [eq_div_iff hchpos.ne', ← hN, ← hch, hB]; ring
  rw [this]
  field_simp

/-- The same for complex-valued functions. -/
theorem lagrange_bound_complex {f : ℕ → ℝ → ℂ} (hf : ∀ n t, HasDerivAt (f n) (f (n + 1) t) t) {N q : ℕ} (hq : q < N) {x : ℝ}
    (h0 : (q : ℝ) ≤ x) (h1 : x < q + 1) {M : ℝ} (hM : ∀ t, ‖f N t‖ ≤ M) :
    ‖f 0 x - ∑ m ∈ range N, ((Tod.wgt N x m : ℝ) : ℂ) * f 0 m‖ ≤ M / N.choose (q + 1) := by
  set z := f 0 x - ∑ m ∈ range N, ((Tod.wgt N x m : ℝ) : ℂ) * f 0 m with hz
  have hM0 : 0 ≤ M := (norm_nonneg _).trans (hM 0)
  by_cases hz0 : z = 0
  · rw [hz0, norm_zero]; positivity
  set u : ℂ := (starRingEnd ℂ) z / ‖z‖ with hu
  have hn : (0 : ℝ) < ‖z‖ := norm_pos_iff.mpr hz0
  have hun : ‖u‖ = 1 := by rw [hu, norm_div, Complex.norm_conj, Complex.norm_real, norm_norm, div_self hn.ne']
  have huz : (u * z).re = ‖z‖ := by
    rw [hu, div_mul_eq_mul_div, mul_comm, Complex.mul_conj, Complex.normSq_eq_norm_sq]
    rw [← Complex.ofReal_div, Complex.ofReal_re]
    field_simp
  have T : Tower (fun n t => (u * f n t).re) := by
    intro n t
    have h := (hf n t).const_mul u
    exact (Complex.reCLM.hasFDerivAt (x := u * f n t)).comp_hasDerivAt t h
  have hb := lagrange_bound T hq h0 h1 (M := M) (fun t => by
    refine (Complex.abs_re_le_norm _).trans ?_
    rw [norm_mul, hun, one_mul]; exact hM t)
  have e : (u * f 0 x).re - ∑ m ∈ range N, Tod.wgt N x m * (u * f 0 m).re = ‖z‖ := by
    rw [← huz, hz, mul_sub, Complex.sub_re, mul_sum, Complex.re_sum]
    congr 1
    apply sum_congr rfl
    intro m _
    rw [show u * (((Tod.wgt N x m : ℝ) : ℂ) * f 0 m) = ((Tod.wgt N x m : ℝ) : ℂ) * (u * f 0 m) by ring, Complex.re_ofReal_mul]
  have hb' : |(u * f 0 x).re - ∑ m ∈ range N, Tod.wgt N x m * (u * f 0 m).re| ≤ M / N.choose (q + 1) := hb
  rw [e, abs_of_pos hn] at hb'
  exact hb'

end Verif.Num
