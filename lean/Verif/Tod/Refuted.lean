import Verif.Tod.Throws
import Verif.Tod.Counts
import Mathlib.Analysis.Real.Pi.Bounds

/-!
# Full statements of C05, C06, C07, C43 and their refutation

The properties that do not hold for the code are kept here in full, as propositions about the model with the
histogram size of the code (100000 bins), next to the proofs that they fail.  What does hold is
proved by the theorems with the suffix `_partial`.
-/

namespace Verif.Tod
open Verif Res RealArith Spmd

/-- An environment with the number of bins of the code. -/
noncomputable def codeEnv : Env ℝ := { demoEnv with nbin := 100000 }

theorem codeEnv_ok : EnvOK codeEnv := ⟨demoEnv_ok.sort, demoEnv_ok.sched, demoEnv_ok.nan, demoEnv_ok.verb, demoEnv_ok.ring_len, demoEnv_ok.kern⟩

theorem codeEnv_order : codeEnv.cfg.order ≤ codeEnv.cfg.nphi := by simp [codeEnv, demoEnv, Cfg.nphi]

/-- The pointing of a rank is legal. -/
def LegalRows (rows : List (Row ℝ)) : Prop := ∀ y ∈ rows, 0 ≤ y.theta ∧ y.theta ≤ Real.pi

/-- C05, exact arithmetic: `convolve` throws on a rank iff one of its own colatitudes is outside `[0, pi]`. -/
theorem C05_check_iff_real_partial {e : Env ℝ} (he : EnvOK e) (hord : e.cfg.order ≤ e.cfg.nphi) {n : Nat}
    (R : Nat → List (Row ℝ)) {r : Nat} (hr : r < n) :
    Throws n (job e n R) r ↔ ¬ LegalRows (R r) := by
  have hV := valid_real he hord (n := n) (by omega) R
  rw [C05_check_iff_partial hV.laws hV.tags hr (fun s hs y hy _ _ => ⟨trivial, hV.defined s hs y hy⟩)]
  unfold LegalRows
  push Not
  simp only [lt_iff, ofInt_def, Int.cast_zero, pi_def]
  constructor
  · rintro ⟨y, hy, h⟩
    refine ⟨y, hy, fun h0 => ?_⟩
    rcases h with h | h
    · exact absurd h0 (not_le.mpr h)
    · exact h
  · rintro ⟨y, hy, h⟩
    refine ⟨y, hy, ?_⟩
    by_cases h0 : 0 ≤ y.theta
    · exact Or.inr (h h0)
    · exact Or.inl (not_le.mp h0)

/-- Both directions of `C05_check_iff_real_partial` are met by concrete jobs. -/
example : Throws 2 (job codeEnv 2 (fun r => [⟨0, if r = 0 then 4 else 1, 0, 0, 0⟩])) 0 ∧
    ¬ Throws 2 (job codeEnv 2 (fun r => [⟨0, if r = 0 then 4 else 1, 0, 0, 0⟩])) 1 := by
  have h3 := Real.pi_gt_three
  have h4 := Real.pi_lt_four
  refine ⟨(C05_check_iff_real_partial codeEnv_ok codeEnv_order _ (by norm_num)).mpr ?_, fun h =>
    (C05_check_iff_real_partial codeEnv_ok codeEnv_order _ (by norm_num)).mp h ?_⟩
  · intro h
    have := (h _ (List.mem_singleton.mpr rfl)).2
    simp at this; linarith
  · intro y hy
    simp at hy; subst hy
    simp only
    constructor <;> linarith

/-- C05 in full, for numbers with a NaN: `convolve` throws iff a local colatitude is below 0, above pi or NaN. -/
def C05_Full : Prop := ∀ (e : Env (Option ℝ)) (n : Nat) (R : Nat → List (Row (Option ℝ))) (r : Nat), r < n →
  (Throws n (job e n R) r ↔ ∃ y ∈ R r, y.theta = none ∨ Arith.lt y.theta (Arith.ofInt 0) = true ∨
    Arith.lt Arith.pi y.theta = true)

theorem C05_full_refuted : ¬ C05_Full := by
  intro h
  let e : Env (Option ℝ) := ⟨⟨2, 1, 1⟩, 100000, fun _ _ => ok ([], []), fun _ _ => [], ok 0, id, id, false, false, none, fun _ => 1⟩
  have ht := (h e 1 (fun _ => [⟨none, none, none, none, none⟩]) 0 (by norm_num)).mpr
    ⟨_, List.mem_singleton.mpr rfl, Or.inl rfl⟩
  obtain ⟨Q, hQ, w, hw⟩ := C05_nan_not_rejected e none none none none
  obtain ⟨m, hm⟩ := Throws.of_blocked (r := 0) (by norm_num) (blocked_of_done (s := 0) (by norm_num) hw)
    (Throws.of_steps (by norm_num) hQ ht)
  rw [hw] at hm
  injection hm with hm
  cases hm

/-- C06 in full: for legal pointings (none exactly on the equator, which is C43) every job returns on all
ranks. -/
def C06_Full : Prop := ∀ (e : Env ℝ) (n : Nat) (R : Nat → List (Row ℝ)), EnvOK e → e.cfg.order ≤ e.cfg.nphi →
  e.nbin = 100000 → 1 ≤ n → (∀ r < n, LegalRows (R r) ∧ ∀ y ∈ R r, y.theta ≠ Real.pi / 2) →
  ∃ v, Returns n (job e n R) v

theorem lonely_any {e : Env ℝ} (he : EnvOK e) (hord : e.cfg.order ≤ e.cfg.nphi) (hN : 0 < e.nbin) :
    runAll 2 (job e 2 lonely) = .stuck := by
  obtain ⟨N, hN'⟩ : ∃ N, e.nbin = N := ⟨_, rfl⟩
  rw [hN'] at hN
  have hpi := Real.pi_pos
  have hleg : ∀ r < 2, ∀ y ∈ lonely r, 0 ≤ y.theta ∧ y.theta ≤ Real.pi ∧ y.theta ≠ Real.pi / 2 := by
    intro r _ y hy
    unfold lonely at hy
    split at hy
    · simp at hy; subst hy; exact ⟨le_rfl, hpi.le, by simp only; intro h; linarith⟩
    · simp at hy
  have hb : binOf N 0 = 0 := by
    unfold binOf; rw [foldGt_of_le (by linarith)]; simp
  have hits : sumCols ((List.range 2).map (fun r => (List.range N).map (fun j : ℕ =>
      (((lonely r).countP (fun y => decide (binOf N y.theta = (j : ℤ))) : ℕ) : ℤ)))) N =
      (List.range N).map (fun j : ℕ => if j = 0 then 1 else 0) := by
    unfold sumCols
    apply List.map_congr_left
    intro j hj
    have hj' : j < N := List.mem_range.mp hj
    have h2 : List.range 2 = [0, 1] := rfl
    rw [h2]
    simp only [List.map_cons, List.map_nil, List.sum_cons, List.sum_nil, List.getD]
    by_cases h0 : j = 0
    · subst h0
      simp [lonely, hb, hN]
    · have : ¬ ((0 : ℤ) = (j : ℤ)) := by omega
      simp [lonely, hb, h0, this, List.getElem?_range, hj']
  have hD : Distributed e 2 lonely [0, 0] := by
    refine ⟨fun r hr y hy => ?_, _, fun r hr => (hN' ▸ C43_histogram_partial hN _ (hleg r hr)), ?_⟩
    · obtain ⟨a, b, _⟩ := hleg r hr y hy
      exact ⟨by rw [lt_false]; simpa using a, by rw [lt_false]; simpa using b⟩
    · have hnb : e.nbin = N := hN'
      rw [hnb, hits]
      have hs : (samples 2 lonely).length = 1 := by simp [samples, lonely, List.range_succ]
      rw [hs]
      have hrd : rd ((List.range N).map (fun j : ℕ => if j = 0 then (1 : ℤ) else 0)) 0 = ok 1 := by
        rw [rd_ok le_rfl (by simpa using hN)]
        simp
      have hstep : boundStep (F := ℝ) N 2 ((List.range N).map (fun j : ℕ => if j = 0 then 1 else 0)) 0
          (-1, ((1 : ℕ) : ℤ), [Arith.ofInt 0]) = ok (0, 0, [0, 0]) := by
        unfold boundStep
        have : (((N : ℕ) : ℤ) - (-1 : ℤ)).toNat = N + 1 := by omega
        simp only [this]
        rw [findBin]
        simp only [show (-1 : ℤ) + 1 = 0 by norm_num, hrd, ok_bind]
        norm_num
      unfold boundTable
      rw [show 2 - 1 = 0 + 1 by norm_num, forN_succ]
      simp only [forN, ok_bind]
      rw [hstep]
      rfl
  rw [C06_deadlock_iff (valid_real he hord (by norm_num) lonely) hD]
  refine ⟨⟨1, by norm_num, by simp [lonely]⟩, 0, by norm_num, by simp [lonely], ?_⟩
  intro t ht
  interval_cases t
  · simp [lonely, bucket]
  · have : own 2 [(0:ℝ), 0] 0 0 = 1 := by
      have hf : foldGe (0 : ℝ) = 0 := by
        unfold foldGe; rw [if_neg (by simp; linarith)]
      simp [own, ownerStep, hf, rd, searchUp]
    simp [lonely, bucket, owners, this]

theorem lonely_code : runAll 2 (job codeEnv 2 lonely) = .stuck :=
  lonely_any codeEnv_ok codeEnv_order (by norm_num [codeEnv])

/-- C06 fails: one sample at the north pole on rank 1 of two. -/
theorem C06_full_refuted : ¬ C06_Full := by
  intro h
  have hpi := Real.pi_pos
  obtain ⟨v, hv⟩ := h codeEnv 2 lonely codeEnv_ok codeEnv_order rfl (by norm_num) (by
    intro r _
    unfold lonely LegalRows
    split
    · refine ⟨?_, ?_⟩ <;> (intro y hy; simp at hy; subst hy; simp only)
      · exact ⟨le_rfl, hpi.le⟩
      · intro h; linarith
    · simp)
  unfold Returns at hv
  rw [lonely_code] at hv
  cases hv

/-- C07 in full: an illegal pointing on some rank ends the job on all ranks. -/
def C07_Full : Prop := ∀ (e : Env ℝ) (n : Nat) (R : Nat → List (Row ℝ)), EnvOK e → e.cfg.order ≤ e.cfg.nphi →
  e.nbin = 100000 → (∃ r < n, ¬ LegalRows (R r)) → ∃ rs, runAll n (job e n R) = .finished rs

theorem C07_full_refuted : ¬ C07_Full := by
  intro h
  have h3 := Real.pi_gt_three
  have hbad : ∃ r < 2, ¬ LegalRows ((fun r : ℕ => ([⟨0, if r = 0 then -1 else 1, 0, 0, 0⟩] : List (Row ℝ))) r) := by
    refine ⟨0, by norm_num, fun h => ?_⟩
    have := (h _ (List.mem_singleton.mpr rfl)).1
    norm_num at this
  obtain ⟨rs, hrs⟩ := h codeEnv 2 _ codeEnv_ok codeEnv_order rfl hbad
  rw [(C07_error_on_one_rank_deadlocks codeEnv _ (r := 0) (s := 1) (by norm_num) (by norm_num)
    ⟨_, List.mem_singleton.mpr rfl, Or.inl (by simp)⟩ (by
      intro y hy
      simp at hy; subst hy
      exact ⟨by rw [lt_false]; simp, by rw [lt_false]; simp; linarith⟩)).2] at hrs
  cases hrs

/-- C43 in full: no legal job executes undefined behaviour while the colatitude table is computed (or at any
other time). -/
def C43_Full : Prop := ∀ (e : Env ℝ) (n : Nat) (R : Nat → List (Row ℝ)), EnvOK e → e.cfg.order ≤ e.cfg.nphi →
  e.nbin = 100000 → 1 ≤ n → (∀ r < n, LegalRows (R r)) → ∀ r < n, ¬ HasUB n (job e n R) r

theorem C43_full_refuted : ¬ C43_Full := by
  intro h
  have hpi := Real.pi_pos
  have hl : LegalRows [⟨0, Real.pi / 2, 0, 0, 0⟩] := by
    intro y hy
    simp at hy; subst hy
    simp only
    constructor <;> linarith
  exact h codeEnv 1 (fun _ => [⟨0, Real.pi / 2, 0, 0, 0⟩]) codeEnv_ok codeEnv_order rfl le_rfl (fun _ _ => hl) 0
    (by norm_num) (C43_equator_undefined le_rfl (by norm_num [codeEnv]) (fun _ _ => hl) (List.mem_singleton.mpr rfl) rfl)

/-- C45 in full: the counts of the rings exchanged are exact for all limits the C interface accepts. -/
def C45_Full : Prop := ∀ lmax mmax ntheta : Int, 0 ≤ mmax → mmax ≤ lmax → lmax ≤ 100000 → 0 ≤ ntheta →
  cubeSide [ntheta] (2 * (2 * lmax + 1) * (mmax + 1)) =
    ok ([ntheta * (2 * (2 * lmax + 1) * (mmax + 1))], [0])

theorem C45_full_refuted : ¬ C45_Full := by
  intro h
  have h1 := h 6000 14 6001 (by norm_num) (by norm_num) (by norm_num) (by norm_num)
  obtain ⟨c, hc, h2⟩ := C45_cube_negative_count 6001 (by norm_num) (by norm_num)
  rw [h2] at h1
  injection h1 with h1
  have : c = 6001 * (2 * (2 * 6000 + 1) * (14 + 1)) := by simpa using congrArg (fun p => p.1.headD 0) h1
  norm_num at this
  omega

end Verif.Tod
