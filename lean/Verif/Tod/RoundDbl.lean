import Verif.Tod.RoundProps
import Mathlib.Analysis.Real.Pi.Bounds

/-!
# C58 for binary64, and a concrete job
-/

namespace Verif.Tod
open Verif Res Spmd Finset FP Double

theorem relErr_dbl : RelErr dbl (1 / 2 ^ 53) := ⟨by positivity, fun x => by rw [one_div, inv_mul_eq_div]; exact dbl_rel x⟩

theorem lebesgue_order5 (c : Cfg) (h : c.order = 5) : lebesgue c = 48 / 5 := by
  unfold lebesgue Cfg.ioffset
  rw [h]
  norm_num [Nat.factorial]

/-- The explicit constant for the default order and large problems. -/
theorem errConst_le (c : Cfg) (ho : c.order = 5) (hl : c.lmax ≤ 4000) (hm : c.mbeam ≤ 20) {phi psi : ℝ} (h1 : |phi| ≤ 63 / 10)
    (h2 : |psi| ≤ 63 / 10) : errConst c phi psi ≤ 2300000 := by
  have hl' : (c.lmax : ℝ) ≤ 4000 := by exact_mod_cast hl
  have hm' : (c.mbeam : ℝ) ≤ 20 := by exact_mod_cast hm
  have hpi := Real.pi_gt_d2
  have a1 : |phi| * (c.nphi : ℝ) / (2 * Real.pi) ≤ c.nphi * (63 / 62) := by
    rw [div_le_iff₀ (by positivity)]
    have : (0 : ℝ) ≤ c.nphi := by positivity
    nlinarith [mul_le_mul_of_nonneg_right h1 this]
  have e1 : (c.npoints : ℝ) = 6 := by unfold Cfg.npoints; rw [ho]; norm_num
  have e2 : (c.nphi : ℝ) = 2 * c.lmax + 1 := by unfold Cfg.nphi; push_cast; ring
  have e3 : (c.halfmargin : ℝ) = 4 := by unfold Cfg.halfmargin Cfg.npoints; rw [ho]; norm_num
  have e4 : (c.npsi : ℝ) = c.mbeam + 1 := by unfold Cfg.npsi; push_cast; ring
  have a2 : (c.mbeam : ℝ) * (2 * |psi| + 14) ≤ 20 * (2 * (63 / 10) + 14) :=
    mul_le_mul hm' (by linarith) (by positivity) (by norm_num)
  unfold errConst
  rw [e1, e3, e4] 
  rw [e2] at a1 ⊢
  nlinarith

/-- C58 for binary64 arithmetic (no overflow or underflow), the default interpolation order 5, `lmax` up to 4000 and `beammmax` up to
20, longitudes and position angles up to a full turn: the signal differs from the exact formula by at most `2e-7 f S`. -/
theorem C58_binary64 {e : Env (FP dbl)} (hE : EnvOKF e) (ho : e.cfg.order = 5) (hl2 : 2 ≤ e.cfg.lmax) (hl : e.cfg.lmax ≤ 4000)
    (hm : e.cfg.mbeam ≤ 20) (heps : 0 ≤ e.eps.val) {S : ℝ} (hS : ∀ h i, RingBound e.cfg ((e.ring h i).map FP.val) S)
    {n : ℕ} (hn : 1 ≤ n) {R : ℕ → List (Row (FP dbl))} (hR : (samples n R).length ≤ 2 ^ 52) {v : ℕ → List (Row (FP dbl))}
    (hv : Returns n (job e n R) v) :
    ∀ r < n, ∀ (i : ℕ) (y z : Row (FP dbl)), (R r)[i]? = some y → (v r)[i]? = some z →
      0 ≤ y.theta.val → y.theta.val ≤ dbl Real.pi → |y.phi.val| ≤ 63 / 10 → |y.psi.val| ≤ 63 / 10 →
      ∃ (it0 ip0 : ℕ) (xt xp : ℝ), it0 + e.cfg.npoints ≤ e.cfg.ntheta ∧ ip0 < e.cfg.nphi ∧
        AtStencil e.cfg (foldExact dbl y.theta.val) y.phi.val it0 ip0 xt xp ∧
        |xt - 5 / 2| ≤ 1 / 2 + 1 / 10 ^ 9 ∧ |xp - 5 / 2| ≤ 1 / 2 + 1 / 10 ^ 9 ∧
        |z.sig.val - calFactor e * exactSignal e.cfg (fun i => (e.ring (decide (dbl (Real.pi / 2) ≤ y.theta.val)) i).map FP.val) y.psi.val it0 ip0 xt xp| ≤
          2 / 10 ^ 7 * calFactor e * S := by
  intro r hr i y z hy hz h0 h1 hph hps
  have hK := errConst_le e.cfg ho hl hm hph hps
  have hK0 := (errConst_ge e.cfg y.phi.val y.psi.val).1
  have hu : (1 / 2 ^ 53 : ℝ) * errConst e.cfg y.phi.val y.psi.val ≤ 26 / 10 ^ 11 := by
    have := mul_le_mul_of_nonneg_left hK (show (0 : ℝ) ≤ 1 / 2 ^ 53 by positivity)
    refine this.trans ?_
    norm_num
  have hg : SmallGrid e.cfg (2 ^ 52) := by
    refine ⟨?_, ?_, ?_, ?_⟩
    · unfold Cfg.ntheta Cfg.margin Cfg.halfmargin Cfg.npoints; rw [ho]; omega
    · unfold Cfg.nphi; omega
    · rw [ho]; norm_num [Nat.factorial]
    · rw [ho]; unfold Cfg.nphi; omega
  obtain ⟨it0, ip0, xt, xp, a1, a2, a3, a4, a5, a6⟩ :=
    C58_signal_error rounding_dbl relErr_dbl hE hg heps hS hn hR hv r hr i y z hy hz h0 h1 (hu.trans (by norm_num))
  have eio : (e.cfg.ioffset : ℝ) = 2 := by unfold Cfg.ioffset; rw [ho]; norm_num
  rw [eio] at a4 a5
  have e5 : (2 : ℝ) + 1 / 2 = 5 / 2 := by norm_num
  rw [e5] at a4 a5
  refine ⟨it0, ip0, xt, xp, a1, a2, a3, a4.trans ?_, a5.trans ?_, a6.trans ?_⟩
  · have : (26 / 10 ^ 11 : ℝ) ≤ 1 / 10 ^ 9 := by norm_num
    linarith
  · have : (26 / 10 ^ 11 : ℝ) ≤ 1 / 10 ^ 9 := by norm_num
    linarith
  · rw [lebesgue_order5 _ ho]
    have hf : 0 ≤ calFactor e := by unfold calFactor; split <;> positivity
    have hS0 : 0 ≤ S := (ringAbs_nonneg e.cfg _ 0).trans (hS false 0 0 (by unfold Cfg.nphi; omega))
    have := mul_le_mul_of_nonneg_left hu (show 0 ≤ 8 * calFactor e * (48 / 5) ^ 2 * S by positivity)
    refine this.trans ?_
    have hfs := mul_nonneg hf hS0
    nlinarith

/-! ## a concrete job in binary64 -/

/-- `lmax = 2`, `beammmax = 1`, order 5, constant rings. -/
noncomputable def dblEnv : Env (FP dbl) where
  cfg := ⟨2, 1, 5⟩
  nbin := 4
  kern := fun _ mine => ok (mine.map (fun _ => List.replicate (Cfg.bufsize ⟨2, 1, 5⟩) ⟨1 / 2⟩),
    mine.map (fun _ => List.replicate (Cfg.bufsize ⟨2, 1, 5⟩) ⟨1⟩))
  ring := fun south i => List.replicate (Cfg.bufsize ⟨2, 1, 5⟩) ⟨if south then 1 else 1 / 2⟩
  nan := ok 0
  srt := fun l => l.mergeSort (fun p q => Arith.le p.1 q.1)
  sched := List.reverse
  calibrate := true
  normalized := false
  eps := ⟨0⟩

theorem dblEnv_ok : EnvOKF dblEnv where
  verb := SameVerb.const 0
  sort := fun l => by
    refine ⟨List.mergeSort_perm _ _, ?_⟩
    have := List.pairwise_mergeSort (le := fun p q : FP dbl × ℕ => Arith.le p.1 q.1)
      (fun a b c h1 h2 => by simp only [FP.le_iff] at *; linarith)
      (fun a b => by simp only [Bool.or_eq_true, FP.le_iff]; exact le_total _ _) l
    exact this.imp (fun h => by simpa using h)
  sched := fun l => List.reverse_perm l
  nan := ⟨0, rfl⟩
  ring_len := fun h i => by simp [dblEnv]
  kern := fun _ mine => by simp [dblEnv]

/-- One sample at the pole. -/
noncomputable def dblRows (_ : ℕ) : List (Row (FP dbl)) := [⟨⟨1⟩, ⟨0⟩, ⟨2⟩, ⟨0⟩, ⟨0⟩⟩]

theorem dblRows_hits (r : ℕ) : localHits 4 (dblRows r) = ok [1, 0, 0, 0] := by
  have hp : (0 : ℝ) ≤ dbl (Real.pi / 2) := rounding_dbl.nonneg (by positivity)
  have hf : foldGt (⟨0⟩ : FP dbl) = ⟨0⟩ := by rw [foldGt_float, if_neg (by simpa using hp)]
  have ht : toInt (Arith.div (⟨0⟩ : FP dbl) (wbin 4)) = ok 0 := by
    rw [FP.toInt_eq, FP.div_val]
    simp only [zero_div]
    rw [rounding_dbl.zero, truncR_nonneg le_rfl]
    simp
  simp [localHits, dblRows, foldRes, histStep, hf, ht, List.replicate, rd, wr, Res.bind]

/-- The hypotheses of `C58_binary64` are met: the job returns, the ring bound is 4 and the sample obeys the bound. -/
example : ∃ v, Returns 1 (job dblEnv 1 dblRows) v ∧ ∃ z, (v 0)[0]? = some z ∧
    ∃ (it0 ip0 : ℕ) (xt xp : ℝ), AtStencil dblEnv.cfg 0 1 it0 ip0 xt xp ∧
      |z.sig.val - 2 * exactSignal dblEnv.cfg (fun _ => List.replicate (Cfg.bufsize ⟨2, 1, 5⟩) (1 / 2)) 2 it0 ip0 xt xp| ≤ 2 / 10 ^ 7 * 2 * 4 := by
  have hV := valid_float rounding_dbl dblEnv_ok (by simp [dblEnv, Cfg.nphi]) (by simp [dblEnv, Cfg.nphi]) (n := 1) le_rfl dblRows
    (by simp [samples, dblRows])
  have hD : Distributed dblEnv 1 dblRows [Arith.ofInt 0] := by
    refine ⟨fun r _ y hy => ?_, fun _ => [1, 0, 0, 0], fun r _ => dblRows_hits r, rfl⟩
    simp only [dblRows, List.mem_singleton] at hy
    subst hy
    rw [FP.lt_false, FP.lt_false]
    refine ⟨?_, rounding_dbl.nonneg Real.pi_pos.le⟩
    rw [FP.ofInt_val, Int.cast_zero, rounding_dbl.zero]
  obtain ⟨v, hv⟩ := C06_terminates_if_all_active_partial hV hD (fun r _ => Or.inl (by simp [dblRows]))
  have hl : (v 0).length = 1 := by
    rw [(C01_rows_in_place hV hv 0 (by norm_num)).1]; rfl
  obtain ⟨z, hz⟩ : ∃ z, (v 0)[0]? = some z := ⟨_, List.getElem?_eq_getElem (by omega)⟩
  have hS : ∀ h i, RingBound dblEnv.cfg ((dblEnv.ring h i).map FP.val) 4 := by
    intro h i p hp
    unfold ringAbs
    have hle : ∀ k, |((dblEnv.ring h i).map FP.val).getD k 0| ≤ 1 := by
      intro k
      simp only [dblEnv, List.map_replicate, List.getD, List.getElem?_replicate]
      split
      · cases h <;> norm_num
      · simp
    refine (Finset.sum_le_sum (fun k _ => add_le_add (hle _) (hle _))).trans ?_
    simp [dblEnv, Cfg.npsi]
    norm_num
  obtain ⟨it0, ip0, xt, xp, _, _, hs, _, _, h⟩ := C58_binary64 dblEnv_ok rfl (by simp [dblEnv]) (by simp [dblEnv]) (by simp [dblEnv]) (by simp [dblEnv]) hS le_rfl
    (by simp [samples, dblRows]) hv 0 (by norm_num) 0 _ z rfl hz le_rfl (rounding_dbl.nonneg Real.pi_pos.le) (by norm_num) (by norm_num)
  have hp : 1 ≤ dbl (Real.pi / 2) := by
    have h1 := rounding_dbl.int_exact 1 (by norm_num)
    rw [Int.cast_one] at h1
    rw [← h1]
    exact rounding_dbl.mono (by linarith [Real.two_le_pi])
  refine ⟨v, hv, z, hz, it0, ip0, xt, xp, ?_, ?_⟩
  · have e0 : foldExact dbl 0 = 0 := by
      unfold foldExact
      rw [if_neg (by linarith)]
    rw [← e0]; exact hs
  · have hc : calFactor dblEnv = 2 := by simp [calFactor, dblEnv]
    have hb : decide (dbl (Real.pi / 2) ≤ 0) = false := by simpa using lt_of_lt_of_le one_pos hp
    rw [hc] at h
    simp only [hb] at h
    simpa [dblEnv] using h

end Verif.Tod
