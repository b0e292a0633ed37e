import Verif.Tod.Grid

/-!
# Samples on nodes of the interpolation grid

On a node the interpolation returns the ring value itself.
-/

namespace Verif.Tod
open Verif Res RealArith Finset

/-- Colatitudes of the nodes. -/
noncomputable def nodeTheta (c : Cfg) (j : ℕ) : ℝ := Real.pi * j / (c.lmax + 1)

/-- Longitudes of the nodes. -/
noncomputable def nodePhi (c : Cfg) (p : ℤ) : ℝ := Real.pi / 2 + 2 * Real.pi * p / (2 * c.lmax + 1)

theorem nodeTheta_range (c : Cfg) {j : ℕ} (hj : j ≤ c.lmax + 1) : 0 ≤ nodeTheta c j ∧ nodeTheta c j ≤ Real.pi := by
  unfold nodeTheta
  have hpi := Real.pi_pos
  refine ⟨by positivity, ?_⟩
  rw [div_le_iff₀ (by positivity)]
  have : (j : ℝ) ≤ c.lmax + 1 := by exact_mod_cast hj
  nlinarith

theorem foldGt_node (c : Cfg) {j : ℕ} (hj : j ≤ c.lmax + 1) : ∃ j', j' ≤ c.lmax + 1 ∧ foldGt (nodeTheta c j) = nodeTheta c j' := by
  rw [foldGt_real]
  split
  · refine ⟨c.lmax + 1 - j, by omega, ?_⟩
    unfold nodeTheta
    rw [Nat.cast_sub hj]
    have h : (c.lmax : ℝ) + 1 ≠ 0 := by positivity
    field_simp
    push_cast
    ring
  · exact ⟨j, hj, rfl⟩

theorem wgt_node (N j : ℕ) (hj : j < N) (m : ℕ) (hm : m < N) : wgt N (j : ℝ) m = if m = j then 1 else 0 := by
  have h := C12_unit_at_node N j hj
  rw [weightNcm_eq] at h
  injection h with h
  have := congrArg (fun l => l[m]?) h
  simpa [hm] using this

/-- A sample on a node: the interpolation returns twice the Fourier sum of one ring at one longitude.  The ring is the one
at the folded colatitude, the hemisphere is southern iff `theta ≥ pi/2`. -/
theorem sampleSpec_node {e : Env ℝ} (hlen : ∀ h i, (e.ring h i).length = e.cfg.bufsize) (hord : e.cfg.order ≤ e.cfg.nphi)
    {j : ℕ} (hj : j ≤ e.cfg.lmax + 1) (p : ℤ) (psi : ℝ) :
    ∃ i : ℕ, ringTheta e.cfg i = foldGt (nodeTheta e.cfg j) ∧
      sampleSpec e (nodePhi e.cfg p) (nodeTheta e.cfg j) psi =
        ok (2 * psiSum e.cfg (e.ring (decide (Real.pi / 2 ≤ nodeTheta e.cfg j)) i) psi (p % (e.cfg.nphi : ℤ)).toNat) := by
  set c := e.cfg with hc
  have hpi := Real.pi_pos
  obtain ⟨g0, g1⟩ := nodeTheta_range c hj
  obtain ⟨j', hj', hfold⟩ := foldGt_node c hj
  have hb0 := foldGt_nonneg g0 g1
  have hb1 := foldGt_le (nodeTheta c j)
  have hff : foldGt (foldGt (nodeTheta c j)) = foldGt (nodeTheta c j) := foldGt_of_le hb1
  obtain ⟨it, hit, i0, i1, ie, _⟩ := C13_window c hb0 (by linarith : foldGt (nodeTheta c j) ≤ Real.pi)
  have hL : (c.lmax : ℝ) + 1 ≠ 0 := by positivity
  -- position in the grid
  have hpos : (foldGt (nodeTheta c j) - (c.theta0 : ℝ)) * c.invDtheta = ((c.lmax + 1 + c.halfmargin - j' : ℤ) : ℝ) := by
    rw [grid_pos, hfold]
    unfold nodeTheta
    push_cast
    field_simp
  rw [hff, hpos, Int.floor_intCast] at ie
  set i : ℤ := c.lmax + 1 + c.halfmargin - j' with hi
  have hin : 0 ≤ i := by omega
  refine ⟨i.toNat, ?_, ?_⟩
  · unfold ringTheta
    rw [show ((i.toNat : ℤ) : ℝ) = (i : ℝ) by rw [Int.toNat_of_nonneg hin], hfold, theta0_real, dtheta_real, hi]
    unfold nodeTheta
    push_cast
    field_simp
    ring
  · obtain ⟨ip, f, hcell, p0, p1, f0, f1, k, hk⟩ := C14_cell c (by omega) (nodePhi c p)
    -- the cell fraction is the integer `order/2`
    have hn : (0:ℝ) < c.nphi := by unfold Cfg.nphi; push_cast; positivity
    have hpk : (ip : ℝ) + f = (p : ℝ) - c.nphi * k := by
      rw [dphi_real] at hk
      unfold nodePhi at hk
      have hnn : (2 * (c.lmax : ℝ) + 1) = c.nphi := by unfold Cfg.nphi; push_cast; ring
      rw [hnn] at hk
      have h2 : 2 * Real.pi * (p : ℝ) / c.nphi = (ip + f) * (2 * Real.pi / c.nphi) + 2 * Real.pi * k := by linarith
      have h3 : 2 * Real.pi * ((p : ℝ) - c.nphi * k - (ip + f)) = 0 := by
        have h4 := congrArg (fun x => x * (c.nphi : ℝ)) h2
        have h5 : (2 * Real.pi / (c.nphi : ℝ)) * c.nphi = 2 * Real.pi := div_mul_cancel₀ _ hn.ne'
        rw [div_mul_cancel₀ _ hn.ne', add_mul, mul_assoc (ip + f : ℝ), h5] at h4
        linarith
      rcases mul_eq_zero.mp h3 with h | h
      · linarith
      · linarith
    obtain ⟨q, hq⟩ : ∃ q, q = c.order / 2 := ⟨_, rfl⟩
    have hqo : q ≤ c.order := by omega
    rw [← hq] at f0 f1 ie
    have hf : f = (q : ℝ) := by
      have hz : f = ((p - c.nphi * k - ip : ℤ) : ℝ) := by push_cast; linarith
      rw [hz] at f0 f1 ⊢
      have a : (q : ℤ) ≤ p - c.nphi * k - ip := by exact_mod_cast f0
      have b : p - c.nphi * k - ip < (q : ℤ) + 1 := by exact_mod_cast f1
      have : p - c.nphi * k - ip = (q : ℤ) := by omega
      rw [this]; push_cast; rfl
    have hst : stencil c ip q = p % (c.nphi : ℤ) := by
      obtain ⟨s0, s1, s2⟩ := (C14_stencil c hord p0 p1).1 q hqo
      have hp : (ip : ℤ) + (q : ℤ) = p - c.nphi * k := by
        have : ((ip + (q : ℤ) : ℤ) : ℝ) = ((p - c.nphi * k : ℤ) : ℝ) := by rw [hf] at hpk; push_cast; linarith
        exact_mod_cast this
      rw [hp] at s2
      have s3 : stencil c ip q ≡ p [ZMOD c.nphi] := s2.trans (by
        rw [Int.modEq_iff_dvd]; exact ⟨k, by ring⟩)
      rw [← Int.emod_eq_of_lt s0 s1]
      exact s3
    have hN : q < c.npoints := by unfold Cfg.npoints; omega
    unfold sampleSpec
    rw [← hc]
    simp only [hit, ok_bind]
    rw [sampleValue_real c hord (ring := fun i => e.ring (!(Arith.lt (nodeTheta c j) (Arith.halfpi : ℝ))) i.toNat) (fun i => hlen _ _)
      ⟨nodePhi c p, foldGt (nodeTheta c j), psi, Arith.ofInt 0, Arith.ofInt 0⟩ it hcell p0 p1]
    congr 1
    unfold interpValue
    have hfr : (foldGt (nodeTheta c j) - (c.theta0 : ℝ)) * c.invDtheta - it = (q : ℝ) := by
      rw [hpos, ie]; push_cast; ring
    simp only [hfr]
    rw [Finset.sum_eq_single q]
    · rw [Finset.sum_eq_single q]
      · rw [hf, wgt_node _ _ hN _ hN, if_pos rfl, hst]
        have : it + (q : ℤ) = i := by omega
        rw [this]
        have hs : (!(Arith.lt (nodeTheta c j) (Arith.halfpi : ℝ))) = decide (Real.pi / 2 ≤ nodeTheta c j) := by
          rw [Bool.eq_iff_iff]
          simp [lt_false]
        rw [hs]
        ring
      · intro m hm hne
        rw [mem_range] at hm
        rw [hf, wgt_node _ _ hN _ hm, if_neg hne]; ring
      · intro h; exact absurd (mem_range.mpr hN) h
    · intro m hm hne
      rw [mem_range] at hm
      apply Finset.sum_eq_zero
      intro q _
      rw [wgt_node _ _ hN _ hm, if_neg hne]; ring
    · intro h; exact absurd (mem_range.mpr hN) h

end Verif.Tod
