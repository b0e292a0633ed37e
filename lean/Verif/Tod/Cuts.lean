import Verif.Tod.Load
import Verif.Tod.Throws

/-!
# The table of `distribute_colatitudes`, exactly (C59)

When the boundary table is computed without reading behind the histogram, and what it contains; exact arithmetic.
-/

namespace Verif.Tod
open Verif Res RealArith Spmd

/-! ## Specification -/

/-- Number of samples whose distance from the nearer pole is at least `p` bin widths. -/
noncomputable def beyond (nbin n : Nat) (R : Nat → List (Row ℝ)) (p : ℕ) : ℕ :=
  (samples n R).countP (fun y => decide ((p : ℝ) * (Real.pi / 2 / nbin) ≤ min y.theta (Real.pi - y.theta)))

/-- The cuts: cut `k+1` is the first one at which the samples since cut `k` are at least `1/(n-k)` of the samples beyond cut `k`;
there are such samples. -/
structure Cuts (nbin n : Nat) (R : Nat → List (Row ℝ)) (p : ℕ → ℕ) : Prop where
  zero : p 0 = 0
  rest : ∀ k, k + 1 < n → 0 < beyond nbin n R (p k)
  later : ∀ k, k + 1 < n → p k < p (k + 1)
  reach : ∀ k, k + 1 < n → beyond nbin n R (p k) ≤ (n - k) * (beyond nbin n R (p k) - beyond nbin n R (p (k + 1)))
  first : ∀ k, k + 1 < n → ∀ q, p k < q → q < p (k + 1) →
    (n - k) * (beyond nbin n R (p k) - beyond nbin n R q) < beyond nbin n R (p k)

/-- The table: rank 0 starts at the pole, rank `k+1` one bin before cut `k+1`. -/
noncomputable def cutTable (nbin n : Nat) (p : ℕ → ℕ) : List ℝ :=
  0 :: (List.range (n - 1)).map (fun k => ((p (k + 1) : ℝ) - 1) * (Real.pi / 2 / nbin))

/-! ## one search -/

theorem findBin_exact {hits : List ℤ} (h0 : ∀ x ∈ hits, 0 ≤ x) {target : ℝ} :
    ∀ (k p : Nat) (bh left : ℤ), k + p = hits.length + 1 → (hits.drop p).sum = left →
      (bh : ℝ) < target → target ≤ bh + left →
      ∃ q : Nat, findBin hits target k ((p : ℤ) - 1) bh left = ok ((q : ℤ), (hits.drop (q + 1)).sum) ∧ p ≤ q ∧ q < hits.length ∧
        target ≤ ((bh + left - (hits.drop (q + 1)).sum : ℤ) : ℝ) ∧
        ∀ q', p ≤ q' → q' < q → ((bh + left - (hits.drop (q' + 1)).sum : ℤ) : ℝ) < target := by
  intro k
  induction k with
  | zero =>
    intro p bh left hk hs h1 h2
    rw [List.drop_eq_nil_of_le (by omega)] at hs
    simp at hs; subst hs
    push_cast at h2; linarith
  | succ k ih =>
    intro p bh left hk hs h1 h2
    have hp : p < hits.length := by
      by_contra hc
      rw [List.drop_eq_nil_of_le (by omega)] at hs
      simp at hs; subst hs
      push_cast at h2; linarith
    rw [List.drop_eq_getElem_cons hp, List.sum_cons] at hs
    have hb := h0 _ (List.getElem_mem hp)
    rw [findBin]
    rw [show ((p : ℤ) - 1 + 1) = (p : ℤ) by ring, rd_nat hp]
    simp only [ok_bind]
    have hss : (hits.drop (p + 1)).sum = left - hits[p] := by omega
    split
    · rename_i hx
      split
      · rename_i ht
        rw [le_iff, ofInt_def] at ht
        refine ⟨p, by rw [hss], le_rfl, hp, ?_, fun q' h1 h2 => by omega⟩
        rw [hss]; push_cast at ht ⊢; linarith
      · rename_i ht
        rw [le_iff, ofInt_def, not_le] at ht
        obtain ⟨q, a1, a2, a3, a4, a5⟩ := ih (p + 1) (bh + hits[p]) (left - hits[p]) (by omega) hss ht
          (by push_cast; linarith)
        refine ⟨q, ?_, by omega, a3, ?_, ?_⟩
        · rw [← a1]; congr 1; push_cast; ring
        · refine a4.trans (le_of_eq ?_); congr 1; ring
        · intro q' b1 b2
          rcases Nat.lt_or_ge p q' with h | h
          · refine lt_of_eq_of_lt ?_ (a5 q' (by omega) b2); congr 1; ring
          · have e : q' = p := by omega
            subst e
            rw [hss]; push_cast at ht ⊢; linarith
    · rename_i hx
      rw [not_not] at hx
      obtain ⟨q, a1, a2, a3, a4, a5⟩ := ih (p + 1) bh left (by omega) (by omega) h1 h2
      refine ⟨q, ?_, by omega, a3, a4, ?_⟩
      · rw [← a1]; congr 1; push_cast; ring
      · intro q' b1 b2
        rcases Nat.lt_or_ge p q' with h | h
        · exact a5 q' (by omega) b2
        · have e : q' = p := by omega
          subst e
          rw [hss, hx]; push_cast; linarith

/-- Without remaining samples the search reads behind the histogram. -/
theorem findBin_empty {hits : List ℤ} (h0 : ∀ x ∈ hits, 0 ≤ x) {target : ℝ} :
    ∀ (k p : Nat) (bh left : ℤ), 1 ≤ k → k + p = hits.length + 1 → (hits.drop p).sum = 0 →
      ∃ w, findBin hits target k ((p : ℤ) - 1) bh left = ub w := by
  intro k
  induction k with
  | zero => intro p _ _ h; omega
  | succ k ih =>
    intro p bh left _ hk hs
    rw [findBin]
    rw [show ((p : ℤ) - 1 + 1) = (p : ℤ) by ring]
    rcases Nat.lt_or_ge p hits.length with hp | hp
    · rw [List.drop_eq_getElem_cons hp, List.sum_cons] at hs
      have hb := h0 _ (List.getElem_mem hp)
      have hr : 0 ≤ (hits.drop (p + 1)).sum := List.sum_nonneg (fun x hx => h0 x (List.mem_of_mem_drop hx))
      rw [rd_nat hp]
      simp only [ok_bind]
      rw [if_neg (by rw [not_not]; omega)]
      obtain ⟨w, hw⟩ := ih (p + 1) bh left (by omega) (by omega) (by omega)
      refine ⟨w, ?_⟩
      rw [← hw]; congr 1; push_cast; ring
    · refine ⟨"read out of bounds", ?_⟩
      have : rd hits (p : ℤ) = ub "read out of bounds" := by
        unfold rd
        rw [dif_neg (by simp; omega)]
      rw [this]; rfl

/-! ## the table -/

/-- One entry of the table, from the number `B` of samples not yet assigned. -/
theorem boundStep_cut {nbin n k p : ℕ} {hits : List ℤ} (hl : hits.length = nbin) (h0 : ∀ x ∈ hits, 0 ≤ x) (hk : k + 1 < n) (tab : List ℝ)
    (hp : p ≤ nbin) :
    (0 < (hits.drop p).sum ∧ ∃ q : ℕ, boundStep nbin n hits k ((p : ℤ) - 1, (hits.drop p).sum, tab) =
        ok (((q : ℕ) : ℤ) - 1, (hits.drop q).sum, tab ++ [((q : ℝ) - 1) * (Real.pi / 2 / nbin)]) ∧ p < q ∧ q ≤ nbin ∧
        (hits.drop p).sum ≤ ((n : ℤ) - k) * ((hits.drop p).sum - (hits.drop q).sum) ∧
        ∀ q', p < q' → q' < q → ((n : ℤ) - k) * ((hits.drop p).sum - (hits.drop q').sum) < (hits.drop p).sum) ∨
    ((hits.drop p).sum = 0 ∧ ∃ w, boundStep nbin n hits k ((p : ℤ) - 1, (hits.drop p).sum, tab) = ub w) := by
  have hr : 0 ≤ (hits.drop p).sum := List.sum_nonneg (fun x hx => h0 x (List.mem_of_mem_drop hx))
  have hd : (1 : ℝ) ≤ (n : ℝ) - k := by
    have : (k : ℝ) + 1 ≤ n := by exact_mod_cast (by omega : k + 1 ≤ n)
    linarith
  have hdiv : (Arith.ofInt ((n : ℤ) - ((k : ℤ) + 1) + 1) : ℝ) = (n : ℝ) - k := by
    simp; ring
  have hfuel : ((nbin : ℤ) - ((p : ℤ) - 1)).toNat = nbin + 1 - p := by omega
  rcases hr.lt_or_eq with hpos | hz
  · left
    refine ⟨hpos, ?_⟩
    set B := (hits.drop p).sum with hB
    have hBr : (0 : ℝ) < B := by exact_mod_cast hpos
    obtain ⟨q, a1, a2, a3, a4, a5⟩ := findBin_exact h0 (target := (B : ℝ) / ((n : ℝ) - k)) (nbin + 1 - p) p 0 B (by omega) hB.symm
      (by push_cast; positivity) (by push_cast; rw [zero_add]; exact div_le_self hBr.le hd)
    refine ⟨q + 1, ?_, by omega, by omega, ?_, ?_⟩
    · unfold boundStep
      simp only
      rw [hdiv]
      simp only [div_def, ofInt_def, mul_def]
      rw [hfuel, a1]
      simp only [Res.ok_bind, wbin_real]
      push_cast
      simp
    · rw [div_le_iff₀ (by linarith)] at a4
      have : ((B : ℤ) : ℝ) ≤ ((((n : ℤ) - k) * (B - (hits.drop (q + 1)).sum) : ℤ) : ℝ) := by
        refine a4.trans (le_of_eq ?_)
        rw [zero_add, Int.cast_mul, mul_comm]
        push_cast; ring
      exact_mod_cast this
    · intro q' b1 b2
      have := a5 (q' - 1) (by omega) (by omega)
      rw [lt_div_iff₀ (by linarith), show q' - 1 + 1 = q' by omega] at this
      have h2 : ((((n : ℤ) - k) * (B - (hits.drop q').sum) : ℤ) : ℝ) < ((B : ℤ) : ℝ) := by
        refine lt_of_eq_of_lt ?_ this
        rw [zero_add, Int.cast_mul, mul_comm]
        push_cast; ring
      exact_mod_cast h2
  · right
    refine ⟨hz.symm, ?_⟩
    obtain ⟨w, hw⟩ := findBin_empty h0 (target := ((0 : ℤ) : ℝ) / ((n : ℝ) - k)) (nbin + 1 - p) p 0 0 (by omega) (by omega) hz.symm
    refine ⟨w, ?_⟩
    unfold boundStep
    simp only
    rw [hdiv]
    simp only [div_def, ofInt_def]
    rw [hfuel, ← hz, hw]
    rfl

/-- `Cuts` for a list of counts. -/
structure CutsL (n : Nat) (B : ℕ → ℤ) (p : ℕ → ℕ) (K : ℕ) : Prop where
  zero : p 0 = 0
  rest : ∀ k < K, 0 < B (p k)
  later : ∀ k < K, p k < p (k + 1)
  reach : ∀ k < K, B (p k) ≤ ((n : ℤ) - k) * (B (p k) - B (p (k + 1)))
  first : ∀ k < K, ∀ q, p k < q → q < p (k + 1) → ((n : ℤ) - k) * (B (p k) - B q) < B (p k)

theorem cutsL_run {nbin n : ℕ} {hits : List ℤ} (hl : hits.length = nbin) (h0 : ∀ x ∈ hits, 0 ≤ x) {p : ℕ → ℕ}
    (hc : CutsL n (fun p => (hits.drop p).sum) p (n - 1)) : ∀ k ≤ n - 1, p k ≤ nbin ∧
      forN k (boundStep nbin n hits) (-1, hits.sum, [(Arith.ofInt 0 : ℝ)]) =
        ok ((p k : ℤ) - 1, (hits.drop (p k)).sum, 0 :: (List.range k).map (fun k => ((p (k + 1) : ℝ) - 1) * (Real.pi / 2 / nbin))) := by
  intro k
  induction k with
  | zero =>
    intro _
    rw [hc.zero]
    refine ⟨by omega, ?_⟩
    simp
  | succ k ih =>
    intro hk
    obtain ⟨i1, i2⟩ := ih (by omega)
    rw [forN_succ, i2, ok_bind]
    rcases boundStep_cut hl h0 (k := k) (n := n) (by omega) (0 :: (List.range k).map (fun k => ((p (k + 1) : ℝ) - 1) * (Real.pi / 2 / nbin))) i1 with
      ⟨_, q, a1, a2, a3, a4, a5⟩ | ⟨hz, _⟩
    · have hq : q = p (k + 1) := by
        have c1 := hc.reach k (by omega)
        have c2 := hc.first k (by omega)
        have c3 := hc.later k (by omega)
        rcases Nat.lt_trichotomy q (p (k + 1)) with h | h | h
        · have := c2 q a2 h; omega
        · exact h
        · have := a5 _ c3 h; omega
      subst hq
      refine ⟨a3, ?_⟩
      rw [a1, List.range_succ, List.map_append]
      simp
    · have := hc.rest k (by omega)
      omega

theorem cutsL_exists {nbin n : ℕ} {hits : List ℤ} (hl : hits.length = nbin) (h0 : ∀ x ∈ hits, 0 ≤ x) {t : ℤ × ℤ × List ℝ}
    (h : forN (n - 1) (boundStep nbin n hits) (-1, hits.sum, [(Arith.ofInt 0 : ℝ)]) = ok t) :
    ∃ p, CutsL n (fun p => (hits.drop p).sum) p (n - 1) := by
  have := forN_ok_inv (n - 1) (boundStep nbin n hits) _ t (fun k (s : ℤ × ℤ × List ℝ) =>
    ∃ p, CutsL n (fun p => (hits.drop p).sum) p k ∧ p k ≤ nbin ∧ s.1 = (p k : ℤ) - 1 ∧ s.2.1 = (hits.drop (p k)).sum)
    ⟨fun _ => 0, ⟨rfl, by omega, by omega, by omega, by omega⟩, Nat.zero_le _, by simp, by simp⟩ ?_ h
  · obtain ⟨p, hp, _⟩ := this
    exact ⟨p, hp⟩
  · rintro k ⟨s1, s2, tab⟩ s' hk ⟨p, hp, hpk, e1, e2⟩ hs
    simp only at e1 e2
    subst e1 e2
    rcases boundStep_cut hl h0 (k := k) (n := n) (by omega) tab hpk with ⟨b0, q, a1, a2, a3, a4, a5⟩ | ⟨_, w, hw⟩
    · rw [a1] at hs
      injection hs with hs
      subst hs
      have u0 : ∀ j, j ≤ k → Function.update p (k + 1) q j = p j := fun j hj => Function.update_of_ne (by omega) _ _
      have u1 : Function.update p (k + 1) q (k + 1) = q := Function.update_self ..
      refine ⟨Function.update p (k + 1) q, ⟨by rw [u0 0 (by omega)]; exact hp.zero, ?_, ?_, ?_, ?_⟩, by rw [u1]; exact a3, by rw [u1], by rw [u1]⟩
      all_goals
        intro j hj
        rcases Nat.lt_or_ge j k with h | h
        · rw [u0 j (by omega)]
          try rw [u0 (j + 1) (by omega)]
          first
            | exact hp.rest j h
            | exact hp.later j h
            | exact hp.reach j h
            | exact hp.first j h
        · obtain rfl : j = k := by omega
          rw [u0 j le_rfl]
          try rw [u1]
          first
            | exact b0
            | exact a2
            | exact a4
            | exact a5
    · rw [hw] at hs; cases hs

/-! ## counts of a job -/

theorem le_binOf {nbin : ℕ} (hn : 0 < nbin) (t : ℝ) (p : ℕ) :
    (p : ℤ) ≤ binOf nbin t ↔ (p : ℝ) * (Real.pi / 2 / nbin) ≤ min t (Real.pi - t) := by
  have hw : (0 : ℝ) < Real.pi / 2 / nbin := by have := Real.pi_pos; positivity
  unfold binOf
  rw [foldGt_min, wbin_real, Int.le_floor, le_div_iff₀ hw]
  push_cast
  rfl

theorem sum_drop_binCount {nbin : Nat} (rows : List (Row ℝ))
    (h : ∀ y ∈ rows, 0 ≤ binOf nbin y.theta ∧ binOf nbin y.theta < nbin) (p : ℕ) :
    (((List.range nbin).map (fun j : ℕ => ((rows.countP (fun y => decide (binOf nbin y.theta = (j : ℤ))) : ℕ) : ℤ))).drop p).sum
      = (rows.countP (fun y => decide ((p : ℤ) ≤ binOf nbin y.theta)) : ℕ) := by
  induction rows with
  | nil => simp
  | cons r rows ih =>
    have h1 := ih (fun y hy => h y (by simp [hy]))
    obtain ⟨b0, b1⟩ := h r (by simp)
    have e : (fun j : ℕ => (((r :: rows).countP (fun y => decide (binOf nbin y.theta = (j : ℤ))) : ℕ) : ℤ)) =
        fun j : ℕ => (((rows.countP (fun y => decide (binOf nbin y.theta = (j : ℤ))) : ℕ) : ℤ)) +
          if j = (binOf nbin r.theta).toNat then 1 else 0 := by
      funext j
      rw [List.countP_cons]
      by_cases hj : binOf nbin r.theta = (j : ℤ)
      · rw [if_pos (show j = (binOf nbin r.theta).toNat by omega)]; simp [hj]
      · rw [if_neg (show ¬ j = (binOf nbin r.theta).toNat by omega)]; simp [hj]
    rw [e, ← List.map_drop, List.sum_map_add, List.map_drop, h1, List.countP_cons]
    have : (((List.range nbin).drop p).map (fun j : ℕ => if j = (binOf nbin r.theta).toNat then (1 : ℤ) else 0)).sum =
        if (p : ℤ) ≤ binOf nbin r.theta then 1 else 0 := by
      have s1 := sum_indicator (binOf nbin r.theta).toNat nbin
      rw [if_pos (by omega)] at s1
      rcases Nat.lt_or_ge nbin p with hlt | hge
      · rw [List.drop_eq_nil_of_le (by simp; omega), if_neg (by omega)]; simp
      · have s2 := sum_indicator (binOf nbin r.theta).toNat p
        have s3 : ((List.range nbin).map (fun j : ℕ => if j = (binOf nbin r.theta).toNat then (1 : ℤ) else 0)).sum =
            ((List.range p).map (fun j : ℕ => if j = (binOf nbin r.theta).toNat then (1 : ℤ) else 0)).sum +
            (((List.range nbin).drop p).map (fun j : ℕ => if j = (binOf nbin r.theta).toNat then (1 : ℤ) else 0)).sum := by
          conv_lhs => rw [← List.take_append_drop p (List.range nbin)]
          rw [List.map_append, List.sum_append, List.take_range, min_eq_left hge]
        rw [s1, s2] at s3
        split_ifs at s3 ⊢ <;> omega
    rw [this]
    by_cases hp : (p : ℤ) ≤ binOf nbin r.theta <;> simp [hp]

variable {nbin n : ℕ} {R : ℕ → List (Row ℝ)}

/-- Legal colatitudes, none of them `pi/2`. -/
def LegalOff (n : ℕ) (R : ℕ → List (Row ℝ)) : Prop := ∀ r < n, ∀ y ∈ R r, 0 ≤ y.theta ∧ y.theta ≤ Real.pi ∧ y.theta ≠ Real.pi / 2

theorem drop_hits (hnb : 0 < nbin) (hL : LegalOff n R) (p : ℕ) :
    (((List.range nbin).map (fun j : ℕ => (binCount nbin n R j : ℤ))).drop p).sum = beyond nbin n R p := by
  unfold binCount beyond
  rw [sum_drop_binCount]
  · congr 1
    apply List.countP_congr
    intro y _
    simp only [decide_eq_true_eq]
    exact le_binOf hnb _ _
  · intro y hy
    unfold samples at hy
    obtain ⟨l, hl, hyl⟩ := List.mem_flatten.mp hy
    obtain ⟨r, hr, rfl⟩ := List.mem_map.mp hl
    obtain ⟨a, b, c⟩ := hL r (List.mem_range.mp hr) y hyl
    exact binOf_range hnb a b c

theorem cuts_iff {p : ℕ → ℕ} :
    Cuts nbin n R p ↔ CutsL n (fun p => (beyond nbin n R p : ℤ)) p (n - 1) := by
  have mono : ∀ {a b : ℕ}, a ≤ b → beyond nbin n R b ≤ beyond nbin n R a := by
    intro a b hab
    unfold beyond
    apply List.countP_mono_left
    intro y _ h
    simp only [decide_eq_true_eq] at *
    have hw : (0 : ℝ) ≤ Real.pi / 2 / nbin := by have := Real.pi_pos; positivity
    have : (a : ℝ) ≤ b := by exact_mod_cast hab
    nlinarith
  have cast : ∀ {k a b : ℕ}, k + 1 < n → a ≤ b → (((n - k) * (beyond nbin n R a - beyond nbin n R b) : ℕ) : ℤ) =
      ((n : ℤ) - k) * ((beyond nbin n R a : ℤ) - beyond nbin n R b) := by
    intro k a b hk hab
    have := mono hab
    push_cast [Nat.cast_sub this, Nat.cast_sub (show k ≤ n by omega)]
    rfl
  constructor
  · intro h
    refine ⟨h.zero, fun k hk => by have := h.rest k (by omega); exact_mod_cast this, fun k hk => h.later k (by omega), ?_, ?_⟩
    · intro k hk
      have := h.reach k (by omega)
      rw [← cast (by omega) (h.later k (by omega)).le]
      exact_mod_cast this
    · intro k hk q q1 q2
      have := h.first k (by omega) q q1 q2
      rw [← cast (by omega) q1.le]
      exact_mod_cast this
  · intro h
    refine ⟨h.zero, fun k hk => by have := h.rest k (by omega); exact_mod_cast this, fun k hk => h.later k (by omega), ?_, ?_⟩
    · intro k hk
      have := h.reach k (by omega)
      rw [← cast (by omega) (h.later k (by omega)).le] at this
      exact_mod_cast this
    · intro k hk q q1 q2
      have := h.first k (by omega) q q1 q2
      rw [← cast (by omega) q1.le] at this
      exact_mod_cast this

/-- The table of the code: computed exactly if the cuts exist, and then equal to `cutTable`. -/
theorem table_iff {e : Env ℝ} (hnb : 0 < e.nbin) (hL : LegalOff n R) :
    (∀ p, Cuts e.nbin n R p → Distributed e n R (cutTable e.nbin n p)) ∧
    ((∃ b, Distributed e n R b) → ∃ p, Cuts e.nbin n R p) := by
  set hits := (List.range e.nbin).map (fun j : ℕ => (binCount e.nbin n R j : ℤ)) with hh
  have hl : hits.length = e.nbin := by simp [hh]
  have h0 : ∀ x ∈ hits, 0 ≤ x := by
    intro x hx
    obtain ⟨j, _, rfl⟩ := List.mem_map.mp hx
    positivity
  have hd : ∀ p, (hits.drop p).sum = beyond e.nbin n R p := fun p => drop_hits hnb hL p
  have hN : ((samples n R).length : ℤ) = hits.sum := by
    have := hd 0
    rw [List.drop_zero] at this
    rw [this]
    unfold beyond
    congr 1
    symm
    rw [List.countP_eq_length]
    intro y hy
    unfold samples at hy
    obtain ⟨l, hl, hyl⟩ := List.mem_flatten.mp hy
    obtain ⟨r, hr, rfl⟩ := List.mem_map.mp hl
    obtain ⟨a, b, c⟩ := hL r (List.mem_range.mp hr) y hyl
    simp only [Nat.cast_zero, zero_mul, decide_eq_true_eq]
    exact le_min a (by linarith)
  have hleg : ∀ r < n, ∀ y ∈ R r, Arith.lt y.theta (Arith.ofInt 0) = false ∧ Arith.lt Arith.pi y.theta = false := by
    intro r hr y hy
    obtain ⟨a, b, _⟩ := hL r hr y hy
    exact ⟨by rw [lt_false]; simpa using a, by rw [lt_false]; simpa using b⟩
  have hhist : ∀ r < n, localHits e.nbin (R r) = ok _ := fun r hr => C43_histogram_partial hnb (R r) (hL r hr)
  constructor
  · intro p hp
    rw [cuts_iff] at hp
    refine ⟨hleg, _, hhist, ?_⟩
    rw [sumCols_count, ← hh, hN]
    have hp' : CutsL n (fun p => (hits.drop p).sum) p (n - 1) := by
      have : (fun p => (hits.drop p).sum) = fun p => (beyond e.nbin n R p : ℤ) := funext hd
      rw [this]; exact hp
    have := (cutsL_run hl h0 hp' (n - 1) le_rfl).2
    unfold boundTable
    rw [this]
    rfl
  · rintro ⟨b, hD⟩
    obtain ⟨H, hH, hB⟩ := hD.table
    have e1 : (List.range n).map H = (List.range n).map (fun r => (List.range e.nbin).map (fun j : ℕ =>
        (((R r).countP (fun y => decide (binOf e.nbin y.theta = (j : ℤ))) : ℕ) : ℤ))) := by
      apply List.map_congr_left
      intro r hr
      have a := hH r (List.mem_range.mp hr)
      rw [hhist r (List.mem_range.mp hr)] at a
      injection a with a
      exact a.symm
    rw [e1, sumCols_count, ← hh, hN] at hB
    unfold boundTable at hB
    rw [bind_eq_ok] at hB
    obtain ⟨t, ht, _⟩ := hB
    obtain ⟨p, hp⟩ := cutsL_exists hl h0 ht
    have : (fun p => (hits.drop p).sum) = fun p => (beyond e.nbin n R p : ℤ) := funext hd
    rw [this] at hp
    exact ⟨p, cuts_iff.mpr hp⟩

end Verif.Tod
