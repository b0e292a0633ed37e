import Verif.Tod.Weights

/-!
# The interpolation grid in exact arithmetic (C13, C14) and the value of a sample

-/

namespace Verif.Tod
open Verif Res RealArith Finset

/-! ## fmodulo (C42) -/

/-- `fmodulo(v1, v2)` for `v2 > 0`: the representative of `v1` in `[0, v2)`. -/
theorem fmodulo_real {v1 v2 : ℝ} (h : 0 < v2) : fmodulo v1 v2 = v1 - v2 * ⌊v1 / v2⌋ := by
  unfold fmodulo
  simp only [le_iff, ofInt_def, lt_iff, add_def, eqb_iff]
  have hfmod : Arith.fmod v1 v2 = v1 - v2 * (truncR (v1 / v2) : ℝ) := rfl
  rw [hfmod]
  push_cast
  split
  · rename_i h0
    split
    · rename_i h1
      have : ⌊v1 / v2⌋ = 0 := by
        rw [Int.floor_eq_zero_iff]; exact ⟨by positivity, (div_lt_one h).mpr h1⟩
      rw [this]; simp
    · rw [truncR_nonneg (by positivity)]
  · rename_i h0
    have hneg : v1 / v2 < 0 := div_neg_of_neg_of_pos (not_le.mp h0) h
    have ht : truncR (v1 / v2) = ⌈v1 / v2⌉ := if_neg (by linarith)
    rw [ht]
    have hq : v2 * (v1 / v2) = v1 := mul_div_cancel₀ v1 h.ne'
    split
    · rename_i he
      have h1 : v1 = v2 * (⌈v1 / v2⌉ : ℝ) := by linarith
      have h2 : v1 / v2 = (⌈v1 / v2⌉ : ℝ) := by
        rw [div_eq_iff h.ne']; linarith
      have h3 : ⌊v1 / v2⌋ = ⌈v1 / v2⌉ := by conv_lhs => rw [h2, Int.floor_intCast]
      rw [h3]; linarith
    · rename_i he
      have h3 : ⌊v1 / v2⌋ = ⌈v1 / v2⌉ - 1 := by
        rw [Int.floor_eq_iff]
        push_cast
        have hc := Int.le_ceil (v1 / v2)
        have hc2 := Int.ceil_lt_add_one (v1 / v2)
        refine ⟨by linarith, ?_⟩
        rcases lt_or_eq_of_le hc with hlt | heq
        · linarith
        · exfalso; apply he
          rw [← heq, hq]; ring
      rw [h3]; push_cast; ring

/-- C42: `fmodulo` returns a value in `[0, v2)` that differs from `v1` by a multiple of `v2`. -/
theorem C42_fmodulo {v1 v2 : ℝ} (h : 0 < v2) :
    0 ≤ fmodulo v1 v2 ∧ fmodulo v1 v2 < v2 ∧ ∃ k : ℤ, v1 = fmodulo v1 v2 + v2 * k := by
  rw [fmodulo_real h]
  have h1 := Int.floor_le (v1 / v2)
  have h2 := Int.lt_floor_add_one (v1 / v2)
  have hq : v2 * (v1 / v2) = v1 := mul_div_cancel₀ v1 h.ne'
  refine ⟨?_, ?_, ⌊v1 / v2⌋, by ring⟩
  · nlinarith
  · nlinarith

/-! ## rings (C13) -/

/-- Colatitude of ring `i` of the grid. -/
noncomputable def ringTheta (c : Cfg) (i : ℤ) : ℝ := c.theta0 + i * c.dtheta

theorem grid_pos (c : Cfg) (b : ℝ) :
    (b - (c.theta0 : ℝ)) * c.invDtheta = (c.lmax + 1 : ℝ) + c.halfmargin - b * (((c.lmax : ℝ) + 1) / Real.pi) := by
  rw [theta0_real, invDtheta_real]
  have := Real.pi_ne_zero
  have h : (c.lmax : ℝ) + 1 ≠ 0 := by positivity
  field_simp
  ring

/-- C13: the rings used for a colatitude lie in the grid, the clamps do not act, and the folded
colatitude lies between the two central rings of the window. -/
theorem C13_window (c : Cfg) {theta : ℝ} (h0 : 0 ≤ theta) (h1 : theta ≤ Real.pi) :
    ∃ i : ℤ, betaToItheta c theta = ok i ∧ 0 ≤ i ∧ i + (c.order + 1) ≤ c.ntheta ∧
      i = ⌊(foldGt theta - c.theta0) * c.invDtheta⌋ - (c.order / 2 : ℕ) ∧
      ringTheta c (i + (c.order / 2 : ℕ) + 1) < foldGt theta ∧ foldGt theta ≤ ringTheta c (i + (c.order / 2 : ℕ)) := by
  have hb0 := foldGt_nonneg h0 h1
  have hb1 := foldGt_le theta
  set b := foldGt theta with hb
  have hff : foldGt b = b := foldGt_of_le hb1
  have hpos := grid_pos c b
  set x := (b - (c.theta0 : ℝ)) * c.invDtheta with hx
  have hq0 : 0 ≤ b * (((c.lmax : ℝ) + 1) / Real.pi) := by positivity
  have hq1 : b * (((c.lmax : ℝ) + 1) / Real.pi) ≤ c.lmax + 1 := by
    have hpi := Real.pi_pos
    rw [← mul_div_assoc, div_le_iff₀ hpi]
    have : (0:ℝ) ≤ (c.lmax : ℝ) + 1 := by positivity
    nlinarith
  have hxl : (c.halfmargin : ℝ) ≤ x := by rw [hpos]; linarith
  have hxu : x ≤ (c.lmax + 1 : ℝ) + c.halfmargin := by rw [hpos]; linarith
  have hx0 : 0 ≤ x := le_trans (by positivity) hxl
  have hfl : (c.halfmargin : ℤ) ≤ ⌊x⌋ := Int.le_floor.mpr (by exact_mod_cast hxl)
  have hfu : ⌊x⌋ ≤ (c.lmax + 1 + c.halfmargin : ℤ) := by
    have : (⌊x⌋ : ℝ) ≤ (c.lmax + 1 : ℝ) + c.halfmargin := le_trans (Int.floor_le x) hxu
    exact_mod_cast this
  refine ⟨⌊x⌋ - (c.order / 2 : ℕ), ?_, ?_, ?_, rfl, ?_, ?_⟩
  · unfold betaToItheta
    rw [← hb]
    simp only [toInt_real, ok_bind, sub_def, mul_def, ← hx]
    rw [truncR_nonneg hx0]
    unfold Cfg.ntheta Cfg.margin Cfg.halfmargin Cfg.npoints Cfg.ioffset at *
    rw [if_neg (by push_cast; omega), if_neg (by omega)]
  · unfold Cfg.halfmargin Cfg.npoints at hfl; omega
  · unfold Cfg.ntheta Cfg.margin Cfg.halfmargin Cfg.npoints at *; push_cast; omega
  · have hlt := Int.lt_floor_add_one x
    unfold ringTheta
    have hd : (c.dtheta : ℝ) < 0 := by rw [dtheta_real]; have := Real.pi_pos; apply neg_lt_zero.mpr; positivity
    have hid : (c.dtheta : ℝ) * c.invDtheta = 1 := by
      unfold Cfg.invDtheta; simp only [div_def, ofInt_def]; push_cast; rw [mul_one_div, div_self hd.ne]
    have : b = c.theta0 + x * c.dtheta := by
      rw [hx, mul_assoc, mul_comm (c.invDtheta : ℝ), hid]; ring
    rw [this]
    push_cast
    nlinarith
  · have hle := Int.floor_le x
    unfold ringTheta
    have hd : (c.dtheta : ℝ) < 0 := by rw [dtheta_real]; have := Real.pi_pos; apply neg_lt_zero.mpr; positivity
    have hid : (c.dtheta : ℝ) * c.invDtheta = 1 := by
      unfold Cfg.invDtheta; simp only [div_def, ofInt_def]; push_cast; rw [mul_one_div, div_self hd.ne]
    have : b = c.theta0 + x * c.dtheta := by
      rw [hx, mul_assoc, mul_comm (c.invDtheta : ℝ), hid]; ring
    conv_lhs => rw [this]
    push_cast
    nlinarith

/-- C13: the first ring does not increase with the folded colatitude. -/
theorem C13_antitone (c : Cfg) {a b : ℝ} (ha0 : 0 ≤ a) (ha1 : a ≤ Real.pi) (hb0 : 0 ≤ b) (hb1 : b ≤ Real.pi)
    (hab : foldGt a ≤ foldGt b) {i j : ℤ} (hi : betaToItheta c a = ok i) (hj : betaToItheta c b = ok j) : j ≤ i := by
  obtain ⟨i', hi', _, _, e1, _⟩ := C13_window c ha0 ha1
  obtain ⟨j', hj', _, _, e2, _⟩ := C13_window c hb0 hb1
  rw [hi] at hi'; rw [hj] at hj'
  injection hi' with hi'; injection hj' with hj'
  subst hi'; subst hj'
  rw [e1, e2]
  apply Int.sub_le_sub_right
  apply Int.floor_le_floor
  rw [invDtheta_real]
  have hp : 0 ≤ ((c.lmax : ℝ) + 1) / Real.pi := by positivity
  nlinarith

/-! ## longitudes (C14) -/

theorem dphi_real (c : Cfg) : (c.dphi : ℝ) = 2 * Real.pi / c.nphi := by
  unfold Cfg.dphi; simp

theorem dphi_pos (c : Cfg) : 0 < (c.dphi : ℝ) := by
  rw [dphi_real]
  have := Real.pi_pos
  have : (0:ℝ) < c.nphi := by unfold Cfg.nphi; push_cast; positivity
  positivity

/-- Position of a longitude on the grid, before the reduction modulo `nphi`. -/
theorem phi_pos (c : Cfg) (phi : ℝ) :
    Arith.sub (Arith.mul phi c.invDphi) (c.phioffset : ℝ) = (phi - Real.pi / 2) / c.dphi := by
  unfold Cfg.invDphi Cfg.phioffset
  simp only [sub_def, mul_def, div_def, ofInt_def, halfpi_def]
  push_cast
  rw [mul_one_div, sub_div]

/-- C14: cell and fraction of a longitude.  The first index is in the ring, the fraction lies between
the central nodes of the stencil, and the position is that of `phi` up to full turns. -/
theorem C14_cell (c : Cfg) (hord : c.order / 2 ≤ c.nphi) (phi : ℝ) :
    ∃ (i : ℤ) (f : ℝ), phiCell c phi = ok (i, f) ∧ 0 ≤ i ∧ i < c.nphi ∧
      (c.order / 2 : ℕ) ≤ f ∧ f < (c.order / 2 : ℕ) + 1 ∧
      ∃ k : ℤ, phi = Real.pi / 2 + (i + f) * c.dphi + 2 * Real.pi * k := by
  have hn : (0:ℝ) < c.nphi := by unfold Cfg.nphi; push_cast; positivity
  unfold phiCell
  rw [phi_pos]
  simp only [toInt_real, ok_bind, ofInt_def, sub_def]
  set f0 := (phi - Real.pi / 2) / (c.dphi : ℝ) with hf0
  have e : (((c.nphi : ℤ) : ℝ)) = (c.nphi : ℝ) := by push_cast; rfl
  rw [e]
  obtain ⟨g0, g1, k, gk⟩ := C42_fmodulo (v1 := f0) hn
  set f := fmodulo f0 (c.nphi : ℝ) with hf
  rw [truncR_nonneg g0]
  have hfl0 : 0 ≤ ⌊f⌋ := Int.floor_nonneg.mpr g0
  have hfl1 : ⌊f⌋ < c.nphi := Int.floor_lt.mpr (by exact_mod_cast g1)
  have a1 := Int.floor_le f
  have a2 := Int.lt_floor_add_one f
  have hphi : phi = Real.pi / 2 + f0 * c.dphi := by
    rw [hf0, div_mul_cancel₀ _ (dphi_pos c).ne']; ring
  have hturn : (c.nphi : ℝ) * c.dphi = 2 * Real.pi := by
    rw [dphi_real, mul_div_cancel₀ _ hn.ne']
  refine ⟨_, _, rfl, ?_, ?_, ?_, ?_, ?_⟩
  · unfold Cfg.ioffset; split_ifs <;> omega
  · unfold Cfg.ioffset; split_ifs <;> omega
  · unfold Cfg.ioffset; simp only [Int.cast_sub, Int.cast_natCast]; linarith
  · unfold Cfg.ioffset; simp only [Int.cast_sub, Int.cast_natCast]; linarith
  · unfold Cfg.ioffset
    split_ifs with h1 h2
    · refine ⟨k + 1, ?_⟩
      rw [hphi, gk]; push_cast; rw [← hturn]; ring
    · refine ⟨k - 1, ?_⟩
      rw [hphi, gk]; push_cast; rw [← hturn]; ring
    · refine ⟨k, ?_⟩
      rw [hphi, gk]; push_cast; rw [← hturn]; ring

/-- C14: the cell depends on the longitude modulo a full turn only. -/
theorem C14_periodic (c : Cfg) (phi : ℝ) (k : ℤ) : phiCell c (phi + 2 * Real.pi * k) = phiCell c phi := by
  have hn : (0:ℝ) < c.nphi := by unfold Cfg.nphi; push_cast; positivity
  have hturn : (c.nphi : ℝ) * c.dphi = 2 * Real.pi := by
    rw [dphi_real, mul_div_cancel₀ _ hn.ne']
  unfold phiCell
  rw [phi_pos, phi_pos]
  have e : (Arith.ofInt (c.nphi : ℤ) : ℝ) = (c.nphi : ℝ) := by simp
  have h : (phi + 2 * Real.pi * k - Real.pi / 2) / (c.dphi : ℝ) = (phi - Real.pi / 2) / c.dphi + c.nphi * k := by
    rw [← hturn]
    have := (dphi_pos c).ne'
    field_simp
    ring
  have h2 : fmodulo ((phi + 2 * Real.pi * k - Real.pi / 2) / (c.dphi : ℝ)) (Arith.ofInt (c.nphi : ℤ)) =
      fmodulo ((phi - Real.pi / 2) / (c.dphi : ℝ)) (Arith.ofInt (c.nphi : ℤ)) := by
    rw [e, fmodulo_real hn, fmodulo_real hn, h]
    have : ((phi - Real.pi / 2) / (c.dphi : ℝ) + c.nphi * k) / c.nphi = (phi - Real.pi / 2) / c.dphi / c.nphi + k := by
      rw [add_div, mul_div_cancel_left₀ _ hn.ne']
    rw [this, Int.floor_add_intCast]
    push_cast; ring
  simp only [h2]

/-- The index of the `j`-th longitude of the stencil. -/
def stencil (c : Cfg) (i : ℤ) (j : ℕ) : ℤ := if i + j ≥ c.nphi then i + j - c.nphi else i + j

/-- C14: all longitudes of the stencil are inside the ring and, up to a full turn, consecutive; they are
distinct if the stencil is not longer than the ring. -/
theorem C14_stencil (c : Cfg) (hord : c.order ≤ c.nphi) {i : ℤ} (h0 : 0 ≤ i) (h1 : i < c.nphi) :
    (∀ j ≤ c.order, 0 ≤ stencil c i j ∧ stencil c i j < c.nphi ∧ stencil c i j ≡ i + j [ZMOD c.nphi]) ∧
    (c.order < c.nphi → ∀ j ≤ c.order, ∀ k ≤ c.order, stencil c i j = stencil c i k → j = k) := by
  unfold stencil
  refine ⟨fun j hj => ?_, fun hlt j hj k hk => ?_⟩
  · split
    · refine ⟨by omega, by omega, ?_⟩
      rw [Int.modEq_iff_dvd]; exact ⟨1, by ring⟩
    · exact ⟨by omega, by omega, rfl⟩
  · split <;> split <;> omega

/-! ## the value of a sample -/

theorem forN_sum {n : Nat} {f : Nat → ℝ → Res ℝ} {g : Nat → ℝ} (h : ∀ i < n, ∀ acc, f i acc = ok (acc + g i)) (a : ℝ) :
    forN n f a = ok (a + ∑ i ∈ range n, g i) := by
  induction n with
  | zero => simp
  | succ n ih =>
    rw [forN_succ, ih (fun i hi => h i (by omega)), ok_bind, h n (by omega), sum_range_succ, add_assoc]

theorem angIter_real (w : ℝ) : ∀ k : Nat, angIter (Real.cos w) (Real.sin w) k = (Real.cos (k * w), Real.sin (k * w)) := by
  intro k
  induction k with
  | zero => simp [angIter]
  | succ k ih =>
    rw [angIter, ih]
    simp only [sub_def, mul_def, add_def]
    have : ((k + 1 : ℕ) : ℝ) * w = k * w + w := by push_cast; ring
    rw [this, Real.cos_add, Real.sin_add]

/-- Fourier sum in `psi` for longitude `p` of a ring:
`re₀/2 + Σ_{k ≥ 1} (re_k cos kω − im_k sin kω)`, `ω = psi + π/2`. -/
noncomputable def psiSum (c : Cfg) (ring : List ℝ) (psi : ℝ) (p : ℕ) : ℝ :=
  ∑ k ∈ range c.npsi, ((if k = 0 then 1 / 2 else Real.cos (k * (psi + Real.pi / 2))) * ring.getD (2 * (p * c.npsi + k)) 0
    - (if k = 0 then 0 else Real.sin (k * (psi + Real.pi / 2))) * ring.getD (2 * (p * c.npsi + k) + 1) 0)

theorem ringDot_real (c : Cfg) {ring : List ℝ} (hl : ring.length = c.bufsize) (psi : ℝ) {p : ℤ}
    (h0 : 0 ≤ p) (h1 : p < c.nphi) :
    ringDot c ring (angles c.npsi psi) p = ok (psiSum c ring psi p.toNat) := by
  unfold ringDot
  rw [forN_sum (g := fun k => (if k = 0 then 1 / 2 else Real.cos (k * (psi + Real.pi / 2))) *
      ring.getD (2 * (p.toNat * c.npsi + k)) 0
    - (if k = 0 then 0 else Real.sin (k * (psi + Real.pi / 2))) * ring.getD (2 * (p.toNat * c.npsi + k) + 1) 0)]
  · simp only [ofInt_def, Int.cast_zero, zero_add]; rfl
  · intro k hk acc
    have hpn : p = (p.toNat : ℤ) := by omega
    have hidx : 2 * (p.toNat * c.npsi + k) + 1 < ring.length := by
      rw [hl]; unfold Cfg.bufsize
      have : (p.toNat + 1) * c.npsi ≤ c.nphi * c.npsi := Nat.mul_le_mul_right _ (by omega)
      rw [Nat.add_mul, Nat.one_mul] at this
      omega
    have ha : rd (angles c.npsi psi) (k : ℤ) = ok (if k = 0 then (1 / 2, 0) else
        (Real.cos (k * (psi + Real.pi / 2)), Real.sin (k * (psi + Real.pi / 2)))) := by
      unfold angles
      rw [rd_nat (by simpa using hk)]
      simp only [List.getElem_map, List.getElem_range, add_def, halfpi_def, cos_def, sin_def, half_def, ofInt_def,
        angIter_real, Int.cast_zero]
    rw [ha]
    simp only [ok_bind]
    rw [show (2 * (p * (c.npsi : ℤ) + (k : ℤ))) = ((2 * (p.toNat * c.npsi + k) : ℕ) : ℤ) by
        conv_lhs => rw [hpn]
        push_cast; ring]
    rw [rd_nat (by omega)]
    simp only [ok_bind]
    rw [show (((2 * (p.toNat * c.npsi + k) : ℕ) : ℤ) + 1) = ((2 * (p.toNat * c.npsi + k) + 1 : ℕ) : ℤ) by push_cast; ring,
      rd_nat hidx]
    simp only [ok_bind, add_def, sub_def, mul_def]
    congr 2
    rw [List.getD_eq_getElem?_getD, List.getD_eq_getElem?_getD, List.getElem?_eq_getElem (by omega),
      List.getElem?_eq_getElem hidx, Option.getD_some, Option.getD_some]
    by_cases hk0 : k = 0
    · simp [hk0]
    · simp [hk0]

/-- The interpolated value: weights in colatitude and longitude, Fourier sum in `psi`. -/
noncomputable def interpValue (c : Cfg) (ring : ℤ → List ℝ) (theta psi : ℝ) (it0 ip0 : ℤ) (fphi : ℝ) : ℝ :=
  ∑ k ∈ range c.npoints, ∑ j ∈ range c.npoints,
    wgt c.npoints fphi j * (2 * wgt c.npoints ((theta - c.theta0) * c.invDtheta - it0) k) *
      psiSum c (ring (it0 + k)) psi (stencil c ip0 j).toNat

theorem sampleValue_real (c : Cfg) (hord : c.order ≤ c.nphi) {ring : ℤ → List ℝ}
    (hl : ∀ i, (ring i).length = c.bufsize) (row : Row ℝ) (it0 : ℤ) {ip0 : ℤ} {fphi : ℝ}
    (hcell : phiCell c row.phi = ok (ip0, fphi)) (h0 : 0 ≤ ip0) (h1 : ip0 < c.nphi) :
    sampleValue c ring row it0 c.npoints = ok (interpValue c ring row.theta row.psi it0 ip0 fphi) := by
  unfold sampleValue
  rw [forN_sum (g := fun k => ∑ j ∈ range c.npoints,
    wgt c.npoints fphi j * (2 * wgt c.npoints ((row.theta - c.theta0) * c.invDtheta - it0) k) *
      psiSum c (ring (it0 + k)) row.psi (stencil c ip0 j).toNat)]
  · simp only [ofInt_def, Int.cast_zero, zero_add]; rfl
  · intro k hk acc
    unfold accum
    simp only [weightNcm_eq, ok_bind, hcell]
    rw [show (it0 + (k : ℤ) - it0) = (k : ℤ) by ring, rd_nat (by simpa using hk)]
    simp only [ok_bind]
    apply forN_sum
    intro j hj acc
    rw [rd_nat (by simpa using hj)]
    simp only [ok_bind]
    obtain ⟨s0, s1, _⟩ := (C14_stencil c hord h0 h1).1 j (by unfold Cfg.npoints at hj; omega)
    have hst : (if ip0 + (j : ℤ) ≥ c.nphi then ip0 + (j : ℤ) - c.nphi else ip0 + (j : ℤ)) = stencil c ip0 j := rfl
    rw [hst, ringDot_real c (hl _) row.psi s0 s1]
    simp only [ok_bind, add_def, mul_def, ofInt_def, sub_def, List.getElem_map, List.getElem_range]
    push_cast
    rfl

/-- Every sample can be evaluated (no out-of-bounds access) if the interpolation order does not
exceed the number of longitudes, `order ≤ 2*lmax+1`. -/
theorem sampleSpec_real {e : Env ℝ} (he : EnvOK e) (hord : e.cfg.order ≤ e.cfg.nphi) (phi theta psi : ℝ) :
    ∃ v, sampleSpec e phi theta psi = ok v := by
  unfold sampleSpec
  obtain ⟨i, hi⟩ := betaToItheta_real e.cfg (foldGt theta)
  simp only [hi, ok_bind]
  obtain ⟨ip, f, hc, h0, h1, _⟩ := C14_cell e.cfg (by omega) phi
  exact ⟨_, sampleValue_real e.cfg hord (fun i => he.ring_len _ _) _ i hc h0 h1⟩

theorem accum_congr (c : Cfg) {r r' : Row ℝ} (h1 : r.theta = r'.theta) (h2 : phiCell c r.phi = phiCell c r'.phi)
    (h3 : angles c.npsi r.psi = angles c.npsi r'.psi) (it0 lat : ℤ) (ring : List ℝ) (acc : ℝ) :
    accum c r it0 lat ring acc = accum c r' it0 lat ring acc := by
  unfold accum; rw [h1, h2, h3]

/-- C14: the value of a sample does not change when full turns are added to `phi` or `psi`. -/
theorem C14_value_periodic (e : Env ℝ) (phi theta psi : ℝ) (k m : ℤ) :
    sampleSpec e (phi + 2 * Real.pi * k) theta (psi + 2 * Real.pi * m) = sampleSpec e phi theta psi := by
  have hang : angles e.cfg.npsi (psi + 2 * Real.pi * m) = angles e.cfg.npsi psi := by
    unfold angles
    simp only [add_def, halfpi_def, cos_def, sin_def]
    have : psi + 2 * Real.pi * m + Real.pi / 2 = psi + Real.pi / 2 + m * (2 * Real.pi) := by ring
    rw [this, Real.cos_add_int_mul_two_pi, Real.sin_add_int_mul_two_pi]
  have hcell := C14_periodic e.cfg phi k
  generalize phi + 2 * Real.pi * k = phi' at hcell ⊢
  generalize psi + 2 * Real.pi * m = psi' at hang ⊢
  unfold sampleSpec sampleValue accum
  simp only [hcell, hang]

end Verif.Tod
