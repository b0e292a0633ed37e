import Verif.Tod.Load
import Mathlib.Data.List.Sort
import Mathlib.Tactic.IntervalCases

/-!
# Concrete jobs

Concrete, non-trivial instances of the hypotheses of the theorems about `convolve`.
-/

namespace Verif.Tod
open Verif Res RealArith Spmd

/-- A small environment: `lmax = 2`, `beammmax = 1`, order 1, four bins, constant rings, merge sort, and a
schedule that runs the iterations backwards. -/
noncomputable def demoEnv : Env ℝ where
  cfg := ⟨2, 1, 1⟩
  nbin := 4
  kern := fun _ mine => ok (mine.map (fun i : ℕ => List.replicate (Cfg.bufsize ⟨2, 1, 1⟩) (i : ℝ)),
    mine.map (fun _ => List.replicate (Cfg.bufsize ⟨2, 1, 1⟩) (1 : ℝ)))
  ring := fun south i => List.replicate (Cfg.bufsize ⟨2, 1, 1⟩) (if south then 1 else i)
  nan := ok 0
  srt := fun l => l.mergeSort (fun p q => Arith.le p.1 q.1)
  sched := List.reverse
  calibrate := true
  normalized := false
  eps := 0
  verb := fun r => 6 + r

theorem demoEnv_verb : SameVerb demoEnv.verb :=
  ⟨fun r s => by simp only [demoEnv]; omega, fun r s => by simp only [demoEnv]; omega⟩

theorem demoEnv_ok : EnvOK demoEnv where
  verb := demoEnv_verb
  sort := fun l => by
    refine ⟨List.mergeSort_perm _ _, ?_⟩
    have := List.pairwise_mergeSort (le := fun p q : ℝ × ℕ => Arith.le p.1 q.1)
      (fun a b c h1 h2 => by simp only [le_iff] at *; linarith)
      (fun a b => by simp only [Bool.or_eq_true, le_iff]; exact le_total _ _) l
    exact this.imp (fun h => by simpa using h)
  sched := fun l => List.reverse_perm l
  nan := ⟨0, rfl⟩
  ring_len := fun h i => by simp [demoEnv]
  kern := fun _ mine => by simp [demoEnv]

/-- Three ranks, one sample each, in three different bins. -/
noncomputable def demoRows (r : Nat) : List (Row ℝ) := [⟨1, (2 * r + 1) * (Real.pi / 16), 2, 0, 0⟩]

theorem demo_bin {r : Nat} (hr : r < 3) : binOf 4 ((2 * r + 1) * (Real.pi / 16)) = r := by
  have hpi := Real.pi_pos
  have h3 : (r : ℝ) ≤ 2 := by exact_mod_cast (by omega : r ≤ 2)
  unfold binOf
  rw [foldGt_of_le (by nlinarith), wbin_real, Int.floor_eq_iff]
  have : (2 * (r : ℝ) + 1) * (Real.pi / 16) / (Real.pi / 2 / (4 : ℕ)) = r + 1 / 2 := by
    push_cast; field_simp; ring
  rw [this]
  push_cast
  constructor <;> linarith

theorem demo_balanced : Balanced 4 3 demoRows where
  nbin_pos := by norm_num
  legal := by
    intro r hr y hy
    have hpi := Real.pi_pos
    simp only [demoRows, List.mem_singleton] at hy
    subst hy
    have h3 : (r : ℝ) ≤ 2 := by exact_mod_cast (by omega : r ≤ 2)
    have h0 : (0 : ℝ) ≤ r := by positivity
    simp only
    refine ⟨by positivity, by nlinarith, ?_⟩
    intro h
    nlinarith
  nonempty := ⟨0, by norm_num, by simp [demoRows]⟩
  bins := by
    refine ⟨1, fun j _ => ?_, by simp [samples, List.range_succ, demoRows]⟩
    have h0 := demo_bin (r := 0) (by norm_num)
    have h1 := demo_bin (r := 1) (by norm_num)
    have h2 := demo_bin (r := 2) (by norm_num)
    simp only [binCount, samples, demoRows, List.range_succ, List.range_zero, List.nil_append, List.map_append, List.map_cons,
      List.map_nil, List.flatten_append, List.flatten_cons, List.flatten_nil, List.append_nil, List.cons_append,
      List.countP_cons, List.countP_nil, h0, h1, h2]
    by_cases a : ((0 : ℕ) : ℤ) = (j : ℤ)
    · have : j = 0 := by omega
      subst this; simp
    · by_cases b : ((1 : ℕ) : ℤ) = (j : ℤ)
      · have : j = 1 := by omega
        subst this; simp
      · simp only [a, b, decide_false]; split <;> simp

/-- The hypotheses of `C01_convolve_real`, and hence `Valid`, `Distributed` and `Returns`, are met. -/
example : ∃ v, Returns 3 (job demoEnv 3 demoRows) v ∧ (v 2).length = 1 := by
  obtain ⟨v, hv, _⟩ := C01_convolve_real demoEnv_ok (by simp [demoEnv, Cfg.nphi]) (n := 3) (by norm_num)
    (R := demoRows) demo_balanced (fun r _ => by simp [demoRows])
  refine ⟨v, hv, ?_⟩
  rw [(C01_rows_in_place (valid_real demoEnv_ok (by simp [demoEnv, Cfg.nphi]) (by norm_num) demoRows) hv 2 (by norm_num)).1]
  simp [demoRows]

/-- The same samples on two ranks: meets the hypotheses of `C02_decomposition_independent`. -/
noncomputable def demoRows2 (r : Nat) : List (Row ℝ) := if r = 0 then demoRows 0 ++ demoRows 1 else demoRows 2

example : samples 3 demoRows = samples 2 demoRows2 := by
  simp [samples, demoRows2, List.range_succ]

/-- The hypotheses of `C53_load` are met: no rank gets more than three of the three samples. -/
example : ∃ bounds, ∃ counts : ℕ → List ℕ, (∀ r < 3, fillingBetaSeg 3 bounds (demoRows r) = ok (counts r)) ∧
    ∀ d < 3, ((((List.range 3).map (fun r => (counts r).getD d 0)).sum : ℕ) : ℝ) ≤ 5 * (3 / 3 + 2 * 1) := by
  obtain ⟨b, hD⟩ := C43_distributed_partial (e := demoEnv) (n := 3) (R := demoRows) demo_balanced
  obtain ⟨M, hM, _⟩ := demo_balanced.bins
  obtain ⟨c, h1, h2⟩ := C53_load (M := 1) (by norm_num) hD (by norm_num [demoEnv]) demo_balanced.legal (by
    intro j _
    have h0 := demo_bin (r := 0) (by norm_num)
    have h1 := demo_bin (r := 1) (by norm_num)
    have h2 := demo_bin (r := 2) (by norm_num)
    show binCount 4 3 demoRows j ≤ 1
    simp only [binCount, samples, demoRows, List.range_succ, List.range_zero, List.nil_append, List.map_append, List.map_cons,
      List.map_nil, List.flatten_append, List.flatten_cons, List.flatten_nil, List.append_nil, List.cons_append,
      List.countP_cons, List.countP_nil, h0, h1, h2]
    by_cases a : ((0 : ℕ) : ℤ) = (j : ℤ)
    · have : j = 0 := by omega
      subst this; simp
    · by_cases b : ((1 : ℕ) : ℤ) = (j : ℤ)
      · have : j = 1 := by omega
        subst this; simp
      · simp only [a, b, decide_false]; split <;> simp)
  refine ⟨b, c, h1, fun d hd => ?_⟩
  have := h2 d hd
  simpa [samples, demoRows, List.range_succ] using this

/-- The hypotheses of `C52_owner_interval` and `C52_owner_unique` are met: whether the search starts at the first or at the
last of three ranks, a sample near the south pole and its mirror image go to the same rank. -/
example : ownerStep 3 [0, 1 / 2, 1] 0 (Real.pi - 1 / 4) = ownerStep 3 [0, 1 / 2, 1] 2 (1 / 4 : ℝ) := by
  have h2 := Real.two_le_pi
  have hm : min (Real.pi - 1 / 4) (Real.pi - (Real.pi - 1 / 4)) = 1 / 4 := by
    rw [min_eq_right (by linarith)]; ring
  refine C52_owner_unique rfl ?_ rfl (by norm_num) (by norm_num) ⟨by linarith, by linarith⟩ (Or.inr (by ring)) ?_
  · norm_num
  · rw [hm]; norm_num

/-! ## a blocked job -/

/-- Rank 1 has one sample at the pole, rank 0 has none. -/
noncomputable def lonely (r : Nat) : List (Row ℝ) := if r = 1 then [⟨1, 0, 2, 0, 0⟩] else []

theorem lonely_hits : ∀ r < 2, localHits 4 (lonely r) = ok (if r = 1 then [1, 0, 0, 0] else [0, 0, 0, 0]) := by
  intro r hr
  have hb : binOf 4 0 = 0 := by
    unfold binOf; rw [foldGt_of_le (by have := Real.pi_pos; linarith)]; simp
  rw [C43_histogram_partial (by norm_num) _ (by
    intro y hy
    have := Real.pi_pos
    unfold lonely at hy
    split at hy
    · simp at hy; subst hy; exact ⟨le_rfl, by linarith, by simp only; intro h; linarith⟩
    · simp at hy)]
  congr 1
  unfold lonely
  split
  · simp [List.range_succ, hb]
  · simp [List.range_succ]

theorem lonely_distributed : Distributed demoEnv 2 lonely [0, 0] where
  legal := by
    intro r _ y hy
    have := Real.pi_pos
    unfold lonely at hy
    split at hy
    · simp at hy; subst hy; exact ⟨by rw [lt_false]; simp, by rw [lt_false]; simpa using this.le⟩
    · simp at hy
  table := by
    refine ⟨_, lonely_hits, ?_⟩
    simp [demoEnv, sumCols, List.range_succ, samples, lonely, boundTable, forN, boundStep, findBin, rd]
    norm_num

/-- C06 (finding), concrete: two ranks, one sample on rank 1, none on rank 0: the job blocks. -/
theorem C06_lonely_stuck : runAll 2 (job demoEnv 2 lonely) = .stuck := by
  rw [C06_deadlock_iff (valid_real demoEnv_ok (by simp [demoEnv, Cfg.nphi]) (by norm_num) lonely) lonely_distributed]
  refine ⟨⟨1, by norm_num, by simp [lonely]⟩, 0, by norm_num, by simp [lonely], ?_⟩
  intro t ht
  interval_cases t
  · simp [lonely, bucket]
  · have : own 2 [(0:ℝ), 0] 0 0 = 1 := by
      have hf : foldGe (0 : ℝ) = 0 := by
        have := Real.pi_pos
        unfold foldGe; rw [if_neg (by simp; linarith)]
      simp [own, ownerStep, hf, rd, searchUp]
    simp [lonely, bucket, owners, this]

/-! ## numbers with NaN -/

open Classical in
/-- Reals with a NaN: every operation on NaN is NaN, comparisons with NaN are false, NaN has no integer
value.  Used as a witness only. -/
noncomputable instance : Arith (Option ℝ) where
  add := fun a b => do some ((← a) + (← b))
  sub := fun a b => do some ((← a) - (← b))
  mul := fun a b => do some ((← a) * (← b))
  div := fun a b => do some ((← a) / (← b))
  fmod := fun a b => do some (Arith.fmod (← a) (← b))
  lt := fun a b => match a, b with | some x, some y => Arith.lt x y | _, _ => false
  le := fun a b => match a, b with | some x, some y => Arith.le x y | _, _ => false
  eqb := fun a b => match a, b with | some x, some y => Arith.eqb x y | _, _ => false
  ofInt := fun i => some (i : ℝ)
  trunc := fun a => a.map truncR
  sin := fun a => a.map Real.sin
  cos := fun a => a.map Real.cos
  pi := some Real.pi
  halfpi := some (Real.pi / 2)
  half := some (1 / 2)

/-- C05 (finding), concrete: a NaN colatitude is not rejected but leads to undefined behaviour. -/
theorem C05_nan_not_rejected (e : Env (Option ℝ)) (phi psi s t : Option ℝ) :
    HasUB 1 (job e 1 (fun _ => [⟨phi, none, psi, s, t⟩])) 0 := by
  apply C05_unbinned_undefined e (le_refl 1)
  · intro s _ y hy
    simp at hy; subst hy
    exact ⟨rfl, rfl⟩
  · refine ⟨_, List.mem_singleton.mpr rfl, ?_⟩
    intro i hi
    exfalso
    revert hi
    have : foldGt (none : Option ℝ) = none := rfl
    simp only [this]
    intro hi
    have : Arith.div (none : Option ℝ) (wbin e.nbin) = none := rfl
    rw [this] at hi
    cases hi

/-- C07, concrete: rank 0 has an illegal colatitude, rank 1 a legal one. -/
example : runAll 2 (job demoEnv 2 (fun r => [⟨0, if r = 0 then -1 else 1, 0, 0, 0⟩])) = .stuck := by
  refine (C07_error_on_one_rank_deadlocks demoEnv _ (r := 0) (s := 1) (by norm_num) (by norm_num) ?_ ?_).2
  · exact ⟨_, List.mem_singleton.mpr rfl, Or.inl (by simp)⟩
  · intro y hy
    simp at hy; subst hy
    have := Real.two_le_pi
    exact ⟨by rw [lt_false]; simp, by rw [lt_false]; simp; linarith⟩

end Verif.Tod
