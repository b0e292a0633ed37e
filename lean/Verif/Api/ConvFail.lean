import Verif.Api.ConvMain
import Verif.Num.KernelBad
import Verif.Tod.KernFail

/-!
# What `convolve` does with limits the constructor should have rejected (C34), and with undefined overflow (C38)

Statements about the whole job of all ranks: the pointing is one for which C59 says that a correctly configured job returns
(`Tod.Reaches`), and the outcome of the job is an exception or undefined behaviour.
-/

namespace Verif.Obj
open Verif Res Verif.Harm Verif.Num

/-- A convolver whose next `convolve` reaches the distributed program: limits not negative, weights never computed or
computed by this convolver, `epsilon` set if it will be used. -/
structure Ready (w : World) (c : Conv) (calibrate : Bool) : Prop where
  lmax : 0 ≤ c.lmax
  mmax : 0 ≤ c.mmax
  order : 0 ≤ c.order
  wgt : c.wgt = [] ∨ c.wgt = Tod.baseWgt c.cfg.npoints
  eps : calibrate = true → (w.beam c.b).normalized = true ∨ w.eps c.d ≠ none

/-- Then `convolve` is the distributed program. -/
theorem convolve_eq_job {w : World} {c : Conv} {calibrate : Bool} (h : Ready w c calibrate) (m : Mach) (n : ℕ)
    (R : ℕ → List (Tod.Row ℝ)) :
    (fun r => c.convolve m w calibrate n r (R r)) = Tod.job (c.env m w calibrate) n R := by
  funext r
  have := h.lmax; have := h.mmax; have := h.order
  unfold Conv.convolve
  rw [if_neg (by omega), if_neg (by
    rintro ⟨-, h1, h2, h3⟩
    rcases h.eps h1 with h4 | h4
    · rw [h4] at h2; cases h2
    · exact h4 h3), weightInit_of h.wgt]
  dsimp only
  rw [if_pos rfl]
  rfl

/-- `std::sort` sorts and the conversion of a NaN gives some integer. -/
structure MachBasic (m : Mach) : Prop where
  sort : ∀ l : List (ℝ × ℕ), (m.srt l).Perm l ∧ (m.srt l).Pairwise (fun p q => p.1 ≤ q.1)
  nan : ∃ v, m.nan = ok v
  verb : Tod.SameVerb m.verb

/-- C34: `lmax = 0` is accepted by the constructor, but every convolution with it fails: on every rank the generator of the
Wigner functions throws.  (It does so inside an OpenMP parallel region, so that the exception cannot be caught by the caller.) -/
theorem C34_lmax_zero_throws {w : World} {s b : ℕ} {ls lb mb : ℤ} (h : Reports w s b ls lb mb) (h1 : 0 ≤ ls) (h2 : 0 ≤ lb)
    (d : ℕ) (pol : Bool) {mmax order : ℤ} (hm : 0 ≤ mmax) (hmb : mmax ≤ mb) :
    ∃ c, ctor w s b d pol 0 mmax order = ok c ∧
      ∀ {calibrate : Bool}, Ready w c calibrate → ∀ {m : Mach}, MachBasic m → ∀ {n : ℕ} {R : ℕ → List (Tod.Row ℝ)},
        Tod.Reaches m.nbin n R →
        Spmd.runAll n (fun r => c.convolve m w calibrate n r (R r)) =
          .finished (List.replicate n (Res.throw "lmax too small")) := by
  refine ⟨_, (C34_explicit h d pol order (le_refl 0) hm).1 ⟨h1, h2, hmb⟩, fun {calibrate} hr {m} hM {n R} hR => ?_⟩
  rw [convolve_eq_job hr]
  exact Tod.job_kernel_throws (e := Conv.env m w _ calibrate) hM.sort hM.nan hM.verb hR
    (fun r _ mine => kernelRings_lmax_zero _ _ _ _ _ _ (by rfl) _ _)

/-- C38 for the whole library: if signed overflow is undefined, as C++ says, then so is every convolution with at least one
sample: on every rank, at the first `prepare`. -/
theorem C38_every_convolution_overflows {w : World} {c : Conv} {calibrate : Bool} (hr : Ready w c calibrate) (h0 : 0 < c.lmax)
    {m : Mach} (hM : MachBasic m) {why : String} (hovf : m.ovf = ub why) (ho : ∀ r, (m.orders r).sc.OK c.cfg.lmax)
    {n : ℕ} {R : ℕ → List (Tod.Row ℝ)} (hR : Tod.Reaches m.nbin n R) :
    Spmd.runAll n (fun r => c.convolve m w calibrate n r (R r)) = .finished (List.replicate n (ub why)) := by
  rw [convolve_eq_job hr]
  obtain ⟨M, -, -, h⟩ := Tod.job_kernel_reached (e := Conv.env m w c calibrate) hM.sort hM.nan hM.verb hR
  obtain ⟨Q, hQ, hQ'⟩ := h (fun _ => some (.ub why)) (fun r hr b hb => by
    cases hb
    show kernelRings m.ovf _ _ _ _ _ _ _ _ = _
    rw [hovf]
    exact kernelRings_overflow (ho r) _ _ _ (show 0 < c.lmax.toNat by omega) _ _)
  rw [hQ.runAll_eq hR.ranks, Spmd.runAll_congr hR.ranks (Q := fun _ => .done (Res.ub why)) (fun r hr => hQ' r hr (.ub why) rfl),
    Spmd.runAll_done hR.ranks (fun _ => Res.ub why)]
  simp

/-- C34: `beammmax > lmax` is accepted by the constructor, and every convolution with it is undefined on every rank. -/
theorem C34_mmax_above_lmax_job_undefined {w : World} {s b : ℕ} {ls lb mb : ℤ} (h : Reports w s b ls lb mb)
    (d : ℕ) (pol : Bool) {lmax mmax order : ℤ} (h0 : 0 < lmax) (hgt : lmax < mmax) (h1 : lmax ≤ ls) (h2 : lmax ≤ lb) (h3 : mmax ≤ mb) :
    ∃ c, ctor w s b d pol lmax mmax order = ok c ∧
      ∀ {calibrate : Bool}, Ready w c calibrate → ∀ {m : Mach}, MachBasic m → (∃ v, m.ovf = ok v) →
        (∀ r, (m.orders r).OK c.cfg.lmax c.cfg.npsi) → ∀ {n : ℕ} {R : ℕ → List (Tod.Row ℝ)}, Tod.Reaches m.nbin n R →
        ∀ r < n, Spmd.HasUB n (fun r => c.convolve m w calibrate n r (R r)) r := by
  refine ⟨_, (C34_explicit h d pol order (by omega) (by omega)).1 ⟨h1, h2, h3⟩, fun {calibrate} hr {m} hM hovf ho {n R} hR r hrn => ?_⟩
  obtain ⟨v, hovf⟩ := hovf
  rw [convolve_eq_job hr]
  set c : Conv := ⟨s, b, d, pol, lmax, mmax, order, []⟩ with hc
  have hub : ∀ r mine, ∃ u, (c.env m w calibrate).kern r mine = ub u := by
    intro r mine
    refine kernelRings_ub (by rw [hovf]; exact NoThrow.ok _) _ _ _ _ _ (show 0 < c.cfg.lmax by simp only [hc, Conv.cfg]; omega) _ _ ?_
    exact (C34_mmax_above_lmax_undefined m.ovf (m.fft c.cfg.nphi) c.pol (w.sky c.s).exps (w.beam c.b).exps (lmax := c.cfg.lmax)
      (mmax := c.cfg.mbeam) (by simp only [hc, Conv.cfg]; omega) (ho r) _ _).1
  obtain ⟨M, -, -, hx⟩ := Tod.job_kernel_reached (e := Conv.env m w c calibrate) hM.sort hM.nan hM.verb hR
  choose u hu using hub
  obtain ⟨Q, hQ, hQ'⟩ := hx (fun r => some (.ub (u r (M r)))) (fun r hr b hb => by cases hb; exact hu r (M r))
  exact ⟨Q, hQ, _, hQ' r hrn (.ub (u r (M r))) rfl⟩

/-! ## missing coefficients -/

/-- The kernel uses degree `l` for a ring on which both elements are above the cut-off. -/
theorem kfirst_le {ovf : Res ℤ} {v : ℤ} (hovf : ovf = ok v) {lmax : ℕ} (h0 : 0 < lmax) (hL : lmax < 46341) {θ eps : ℝ} {mb m l : ℕ}
    (hmb : mb ≤ l) (hm : m ≤ l) (hl : l ≤ lmax) (h1 : max eps (tiny lmax) < |wignerD l mb m (genAngle θ)|)
    (h2 : max eps (tiny lmax) < |wignerD l mb (-m) (genAngle θ)|) : kfirst ovf lmax [θ] eps mb m 0 ≤ l := by
  have e1 : |(mb : ℤ)| = mb := abs_of_nonneg (by omega)
  have e2 : |(m : ℤ)| = m := abs_of_nonneg (by omega)
  obtain ⟨-, -, a3, -⟩ := calc_any hovf h0 hL (ths := [θ]) (eps := eps) (m1 := mb) (m2 := m) (by rw [e1]; omega) (by rw [e2]; omega)
    (n := 0) (by simp)
  obtain ⟨-, -, b3, -⟩ := calc_any hovf h0 hL (ths := [θ]) (eps := eps) (m1 := mb) (m2 := -(m : ℤ)) (by rw [e1]; omega)
    (by rw [abs_neg, e2]; omega) (n := 0) (by simp)
  unfold kfirst
  rw [max_le_iff]
  constructor
  · by_contra hlt
    have := a3 l (by rw [e1, e2]; exact_mod_cast max_le hmb hm) (by omega) hl
    simp only [List.getElem_cons_zero] at this
    linarith
  · by_contra hlt
    have := b3 l (by rw [abs_neg, e1, e2]; exact_mod_cast max_le hmb hm) (by omega) hl
    simp only [List.getElem_cons_zero] at this
    linarith

/-- A missing coefficient on a ring that some sample reads: undefined behaviour of the job. -/
theorem missing_job_undefined {w : World} {c : Conv} {calibrate : Bool} (hr : Ready w c calibrate) (h0 : 0 < c.lmax)
    (hL : c.lmax < 46341) (hml : c.mmax ≤ c.lmax) {m : Mach} (hM : MachBasic m) {v : ℤ} (hovf : m.ovf = ok v)
    (ho : ∀ r, (m.orders r).sc.OK c.cfg.lmax) {n : ℕ} {R : ℕ → List (Tod.Row ℝ)} (hR : Tod.Reaches m.nbin n R) {i : ℕ}
    (hi : Tod.Touched c.cfg n R i) {mb ms l : ℕ} (hmb : mb ≤ c.mmax) (hms : ms ≤ c.lmax)
    (h1 : kfirst m.ovf c.cfg.lmax [Tod.ringTheta c.cfg (i : ℕ)] convAcc mb ms 0 ≤ l) (h2 : l ≤ c.lmax)
    (hbad : ∀ p, prods c.pol (w.sky c.s).exps (w.beam c.b).exps l ms mb ≠ ok p) :
    ∃ r < n, Spmd.HasUB n (fun r => c.convolve m w calibrate n r (R r)) r := by
  rw [convolve_eq_job hr]
  have k1 : 0 < c.cfg.lmax := by show 0 < c.lmax.toNat; omega
  have k2 : c.cfg.lmax < 46341 := by show c.lmax.toNat < _; omega
  have k3 : c.cfg.npsi ≤ c.cfg.lmax + 1 := by show c.mmax.toNat + 1 ≤ c.lmax.toNat + 1; omega
  have k4 : mb < c.cfg.npsi := by show mb < c.mmax.toNat + 1; omega
  have k5 : ms ≤ c.cfg.lmax := by show ms ≤ c.lmax.toNat; omega
  have k6 : l ≤ c.cfg.lmax := by show l ≤ c.lmax.toNat; omega
  refine Tod.job_kernel_undefined (e := Conv.env m w c calibrate) hM.sort hM.nan hM.verb hR hi (fun r _ mine hmine _ => ?_)
  exact kernelRings_missing hovf k1 k2 k3 (ho r) _ hmine k4 k5 h1 k6 hbad

/-- The element of degree `l` and orders `(m', m)` is visible on ring `i`: above the cut-off, so that the kernel uses it. -/
def Visible (c : Tod.Cfg) (i l : ℕ) (m' m : ℤ) : Prop :=
  max convAcc (tiny c.lmax) < |wignerD l m' m (genAngle (Tod.ringTheta c (i : ℕ)))|

theorem cutoff_lt_one {lmax : ℕ} (h : lmax < 46341) : max convAcc (tiny lmax) < 1 := by
  have h1 : (lmax : ℝ) ≤ 46340 := by exact_mod_cast (by omega : lmax ≤ 46340)
  have h0 : (0 : ℝ) ≤ lmax := Nat.cast_nonneg _
  rw [max_lt_iff]
  constructor
  · unfold convAcc; norm_num
  · unfold tiny
    have : (2 : ℝ) ^ (-360 : ℤ) ≤ 2 ^ (-60 : ℤ) := zpow_le_zpow_right₀ (by norm_num) (by norm_num)
    have h2 : ((lmax : ℝ) + 1) ^ 2 ≤ 46341 ^ 2 := by
      apply pow_le_pow_left₀ (by positivity); linarith
    have h3 : (2 : ℝ) ^ (-60 : ℤ) = 1 / 2 ^ 60 := by norm_num
    calc 2 * ((lmax : ℝ) + 1) ^ 2 * 2 ^ (-360 : ℤ) ≤ 2 * 46341 ^ 2 * 2 ^ (-60 : ℤ) :=
          mul_le_mul (by linarith) this (by positivity) (by positivity)
      _ < 1 := by rw [h3]; norm_num

/-- Reading past the last order of an expansion. -/
theorem get_past_end {a : Alm ℂ} {ls lm : ℤ} (h : Has a ls lm) (hm : 0 ≤ lm) {l : ℤ} (hl : ls < l) :
    a.get l lm = ub "read out of bounds" := by
  obtain ⟨⟨w1, w2, w3⟩, a2, a3⟩ := h
  unfold Alm.get
  apply rd_ub
  right
  rw [a2, a3] at w3
  unfold numAlms at w3
  rw [a3, a2] at w2
  rw [if_pos w2] at w3
  injection w3 with w3
  rw [a2, ← w3]
  unfold index indexL0
  have e1 : (lm + 1) * (lm + 2) = lm * (lm + 1) + (lm + 1) * 2 := by ring
  rw [e1, Int.add_mul_ediv_right _ _ (by norm_num)]
  have e2 : lm * (2 * ls + 1 - lm) = lm * (ls - lm) * 2 + lm * (lm + 1) := by ring
  rw [e2, add_comm (lm * (ls - lm) * 2), Int.add_mul_ediv_right _ _ (by norm_num)]
  have : (lm + 1) * (ls - lm) = lm * (ls - lm) + (ls - lm) := by ring
  omega

/-- C34: default limits with a sky of smaller `lmax` than the beam.  The constructor takes the beam's `lmax`; every
convolution in which some sample reads a ring on which a degree from `ls` on is visible at sky order `ls` and beam order 0
has undefined behaviour: it reads past the end of the sky. -/
theorem C34_default_lmax_job_undefined {w : World} {s b : ℕ} {pol : Bool} {ls lb mb : ℤ} (h : Loaded w s b pol ls lb mb)
    (d : ℕ) (order : ℤ) (h0 : 0 ≤ ls) (hlt : ls < lb) (hlb : lb < 46341) (hmb : 0 ≤ mb) (hml : mb ≤ lb) :
    ∃ c, ctor w s b d pol (-1) (-1) order = ok c ∧ c.lmax = lb ∧
      ∀ {calibrate : Bool}, Ready w c calibrate → ∀ {m : Mach}, MachBasic m → (∃ v, m.ovf = ok v) →
        (∀ r, (m.orders r).sc.OK c.cfg.lmax) → ∀ {n : ℕ} {R : ℕ → List (Tod.Row ℝ)}, Tod.Reaches m.nbin n R →
        (∃ i, Tod.Touched c.cfg n R i ∧ ∃ l : ℕ, ls ≤ l ∧ l ≤ lb ∧ Visible c.cfg i l 0 ls) →
        ∃ r < n, Spmd.HasUB n (fun r => c.convolve m w calibrate n r (R r)) r := by
  refine ⟨⟨s, b, d, pol, lb, mb, order, []⟩, ?_, rfl, fun {calibrate} hr {m} hM hovf ho {n R} hR hi => ?_⟩
  · rw [ctor_eq h.toReports]
    unfold pickLmax pickMmax
    rw [if_pos (by norm_num), if_pos (by norm_num), max_eq_left (by omega)]; rfl
  obtain ⟨v, hovf⟩ := hovf
  obtain ⟨i, hi, l, l1, l2, hvis⟩ := hi
  obtain ⟨L, rfl⟩ : ∃ L : ℕ, ls = L := ⟨ls.toNat, by omega⟩
  have hcl : ((⟨s, b, d, pol, lb, mb, order, []⟩ : Conv).cfg.lmax : ℤ) = lb := by show ((lb.toNat : ℕ) : ℤ) = lb; omega
  have hsym : |wignerD l 0 (-(L : ℤ)) (genAngle (Tod.ringTheta (⟨s, b, d, pol, lb, mb, order, []⟩ : Conv).cfg (i : ℕ)))| =
      |wignerD l 0 L (genAngle (Tod.ringTheta (⟨s, b, d, pol, lb, mb, order, []⟩ : Conv).cfg (i : ℕ)))| := by
    have := wignerD_neg_neg l (m' := 0) (m := (L : ℤ)) (by simp) (by rw [abs_of_nonneg (by omega)]; omega)
      (genAngle (Tod.ringTheta (⟨s, b, d, pol, lb, mb, order, []⟩ : Conv).cfg (i : ℕ)))
    rw [neg_zero] at this
    rw [this, abs_mul, abs_pow, abs_neg, abs_one, one_pow, one_mul]
  refine missing_job_undefined hr (by show 0 < lb; omega) (by show lb < _; omega) (by show mb ≤ lb; omega) hM hovf ho hR hi (mb := 0)
    (ms := L) (l := max l (L + 1)) (by show ((0 : ℕ) : ℤ) ≤ mb; omega) (by show ((L : ℕ) : ℤ) ≤ lb; omega)
    (le_trans (kfirst_le hovf (by omega) (by omega) (by omega) (by omega) (by omega) hvis (by rw [Nat.cast_zero, hsym]; exact hvis)) (le_max_left _ _))
    (by show ((max l (L + 1) : ℕ) : ℤ) ≤ lb; push_cast; omega) ?_
  intro p hp
  have hoob := get_past_end h.sT (by omega) (l := ((max l (L + 1) : ℕ) : ℤ)) (by push_cast; omega)
  unfold prods Sky.exps at hp
  dsimp only at hp
  rw [hoob] at hp
  cases pol <;> simp at hp

/-- C34: default limits with a beam of smaller `lmax` than the sky, similarly, reading past the end of the beam at its last
order; for a beam with `mmax = 0` every convolution is undefined. -/
theorem C34_default_lmax_beam_undefined {w : World} {s b : ℕ} {pol : Bool} {ls lb mb : ℤ} (h : Loaded w s b pol ls lb mb)
    (d : ℕ) (order : ℤ) (h0 : 0 ≤ lb) (hlt : lb < ls) (hls : ls < 46341) (hmb : 0 ≤ mb) (hml : mb ≤ lb) :
    ∃ c, ctor w s b d pol (-1) (-1) order = ok c ∧ c.lmax = ls ∧
      ∀ {calibrate : Bool}, Ready w c calibrate → ∀ {m : Mach}, MachBasic m → (∃ v, m.ovf = ok v) →
        (∀ r, (m.orders r).sc.OK c.cfg.lmax) → ∀ {n : ℕ} {R : ℕ → List (Tod.Row ℝ)}, Tod.Reaches m.nbin n R →
        (mb = 0 ∨ ∃ i, Tod.Touched c.cfg n R i ∧ ∃ l : ℕ, mb ≤ l ∧ l ≤ ls ∧ Visible c.cfg i l mb 0) →
        ∃ r < n, Spmd.HasUB n (fun r => c.convolve m w calibrate n r (R r)) r := by
  refine ⟨⟨s, b, d, pol, ls, mb, order, []⟩, ?_, rfl, fun {calibrate} hr {m} hM hovf ho {n R} hR hi => ?_⟩
  · rw [ctor_eq h.toReports]
    unfold pickLmax pickMmax
    rw [if_pos (by norm_num), if_pos (by norm_num), max_eq_right (by omega)]; rfl
  obtain ⟨v, hovf⟩ := hovf
  have hcl : ((⟨s, b, d, pol, ls, mb, order, []⟩ : Conv).cfg.lmax : ℤ) = ls := by show ((ls.toNat : ℕ) : ℤ) = ls; omega
  have hi : ∃ i, Tod.Touched (⟨s, b, d, pol, ls, mb, order, []⟩ : Conv).cfg n R i ∧ ∃ l : ℕ, mb ≤ l ∧ l ≤ ls ∧
      Visible (⟨s, b, d, pol, ls, mb, order, []⟩ : Conv).cfg i l mb 0 := by
    rcases hi with rfl | hi
    · obtain ⟨i, hi⟩ := Tod.touched_exists (c := (⟨s, b, d, pol, ls, 0, order, []⟩ : Conv).cfg) hR.some
      exact ⟨i, hi, 0, by omega, by omega, by
        unfold Visible
        rw [(wignerD_zero _).1, abs_one]
        exact cutoff_lt_one (by omega)⟩
    · exact hi
  obtain ⟨i, hi, l, l1, l2, hvis⟩ := hi
  obtain ⟨L, rfl⟩ : ∃ L : ℕ, mb = L := ⟨mb.toNat, by omega⟩
  refine missing_job_undefined hr (by show 0 < ls; omega) (by show ls < _; omega) (by show ((L : ℕ) : ℤ) ≤ ls; omega) hM hovf ho hR hi (mb := L)
    (ms := 0) (l := max l (lb.toNat + 1)) (by show ((L : ℕ) : ℤ) ≤ (L : ℤ); omega) (by show ((0 : ℕ) : ℤ) ≤ ls; omega)
    (le_trans (kfirst_le hovf (by omega) (by omega) (by omega) (by omega) (by omega) hvis (by rw [Nat.cast_zero, neg_zero]; exact hvis)) (le_max_left _ _))
    (by show ((max l (lb.toNat + 1) : ℕ) : ℤ) ≤ ls; push_cast; omega) ?_
  intro p hp
  have hoob := get_past_end h.bT (by omega) (l := ((max l (lb.toNat + 1) : ℕ) : ℤ)) (by push_cast; omega)
  unfold prods Sky.exps Beam.exps at hp
  dsimp only at hp
  rw [hoob] at hp
  cases pol
  · simp only [Bool.false_eq_true, if_false] at hp
    obtain ⟨_, -, hp⟩ := bind_eq_ok.mp hp
    cases hp
  · simp only [if_true] at hp
    obtain ⟨_, -, hp⟩ := bind_eq_ok.mp hp
    obtain ⟨_, -, hp⟩ := bind_eq_ok.mp hp
    obtain ⟨_, -, hp⟩ := bind_eq_ok.mp hp
    cases hp

/-- C34: a polarised convolver on objects read without polarisation is accepted, and every convolution with it has
undefined behaviour: it reads past the end of the (default) gradient part. -/
theorem C34_pol_job_undefined {w : World} {s b : ℕ} {ls lb mb : ℤ} (h : Loaded w s b false ls lb mb) {junk : ℂ}
    (hG : (w.sky s).G = almDefault junk) (d : ℕ) {lmax mmax order : ℤ} (h1 : 1 ≤ lmax) (hL : lmax < 46341) (h2 : lmax ≤ ls)
    (h3 : lmax ≤ lb) (hm : 0 ≤ mmax) (hml : mmax ≤ lmax) (hmb : mmax ≤ mb) :
    ∃ c, ctor w s b d true lmax mmax order = ok c ∧
      ∀ {calibrate : Bool}, Ready w c calibrate → ∀ {m : Mach}, MachBasic m → (∃ v, m.ovf = ok v) →
        (∀ r, (m.orders r).sc.OK c.cfg.lmax) → ∀ {n : ℕ} {R : ℕ → List (Tod.Row ℝ)}, Tod.Reaches m.nbin n R →
        ∃ r < n, Spmd.HasUB n (fun r => c.convolve m w calibrate n r (R r)) r := by
  refine ⟨⟨s, b, d, true, lmax, mmax, order, []⟩, (C34_explicit h.toReports d true order (by omega) hm).1 ⟨h2, h3, hmb⟩,
    fun {calibrate} hr {m} hM hovf ho {n R} hR => ?_⟩
  obtain ⟨v, hovf⟩ := hovf
  have hcl : ((⟨s, b, d, true, lmax, mmax, order, []⟩ : Conv).cfg.lmax : ℤ) = lmax := by
    show ((lmax.toNat : ℕ) : ℤ) = lmax; omega
  obtain ⟨i, hi⟩ := Tod.touched_exists (c := (⟨s, b, d, true, lmax, mmax, order, []⟩ : Conv).cfg) hR.some
  have hvis := cutoff_lt_one (lmax := (⟨s, b, d, true, lmax, mmax, order, []⟩ : Conv).cfg.lmax) (by omega)
  refine missing_job_undefined hr (by show 0 < lmax; omega) (by show lmax < _; omega) (by show mmax ≤ lmax; omega) hM hovf ho hR hi
    (mb := 0) (ms := 0) (l := 1) (by show ((0 : ℕ) : ℤ) ≤ mmax; omega) (by show ((0 : ℕ) : ℤ) ≤ lmax; omega)
    (le_trans (kfirst_le hovf (by omega) (by omega) (le_refl 0) (le_refl 0) (by omega)
      (by rw [Nat.cast_zero, (wignerD_zero _).1, abs_one]; exact hvis)
      (by rw [Nat.cast_zero, neg_zero, (wignerD_zero _).1, abs_one]; exact hvis)) (by omega))
    (by show ((1 : ℕ) : ℤ) ≤ lmax; omega) ?_
  intro p hp
  have := (C34_pol_unchecked h hG d order h1 h2 h3).2 0
  rw [show prods true (w.sky s).exps (w.beam b).exps 1 0 0 = ok p from hp] at this
  exact this

/-- The last order of a sky is visible on a ring whose colatitude is not too close to a pole. -/
theorem visible_top {c : Tod.Cfg} {i L : ℕ}
    (h : max convAcc (tiny c.lmax) < √((2 * L).choose L : ℝ) * |Real.sin (genAngle (Tod.ringTheta c (i : ℕ))) / 2| ^ L) :
    Visible c i L 0 L := by
  unfold Visible
  rw [wignerD_right_top L (by simp)]
  have e1 : ((L : ℤ) + 0).toNat = L := by omega
  have e2 : ((L : ℤ) - 0).toNat = L := by omega
  rw [e1, e2, ← mul_pow, abs_mul, abs_of_nonneg (Real.sqrt_nonneg _), abs_pow]
  have : Real.sin (genAngle (Tod.ringTheta c (i : ℕ))) =
      2 * Real.sin (genAngle (Tod.ringTheta c (i : ℕ)) / 2) * Real.cos (genAngle (Tod.ringTheta c (i : ℕ)) / 2) := by
    rw [← Real.sin_two_mul]; congr 1; ring
  rw [this] at h
  have e3 : 2 * Real.sin (genAngle (Tod.ringTheta c (i : ℕ)) / 2) * Real.cos (genAngle (Tod.ringTheta c (i : ℕ)) / 2) / 2 =
      Real.cos (genAngle (Tod.ringTheta c (i : ℕ)) / 2) * Real.sin (genAngle (Tod.ringTheta c (i : ℕ)) / 2) := by ring
  rw [e3] at h
  exact h

/-- C44: a convolver that was given, with `set_sky`, a sky of smaller `lmax` than its own: no check, and undefined behaviour
of every convolution that reads a ring on which a degree from `ls1` on is visible. -/
theorem C44_set_sky_job_undefined {w : World} {s0 s1 b d : ℕ} {ls lb mb ls1 : ℤ} (h0 : Loaded w s0 b false ls lb mb)
    (h1 : Loaded w s1 b false ls1 lb mb) {lmax mmax order : ℤ} (hL : lmax < 46341) (hm : 0 ≤ mmax) (hml : mmax ≤ lmax)
    (hls : lmax ≤ ls) (hlb : lmax ≤ lb) (hmb : mmax ≤ mb) (hs1 : 0 ≤ ls1) (hsmall : ls1 < lmax) :
    ∃ c0 c, ctor w s0 b d false lmax mmax order = ok c0 ∧ Hist (w, c0) [.setSky s1] (w, c) ∧
      ∀ {calibrate : Bool}, Ready w c calibrate → ∀ {m : Mach}, MachBasic m → (∃ v, m.ovf = ok v) →
        (∀ r, (m.orders r).sc.OK c.cfg.lmax) → ∀ {n : ℕ} {R : ℕ → List (Tod.Row ℝ)}, Tod.Reaches m.nbin n R →
        (∃ i, Tod.Touched c.cfg n R i ∧ ∃ l : ℕ, ls1 ≤ l ∧ l ≤ lmax ∧ Visible c.cfg i l 0 ls1) →
        ∃ r < n, Spmd.HasUB n (fun r => c.convolve m w calibrate n r (R r)) r := by
  refine ⟨_, ⟨s1, b, d, false, lmax, mmax, order, []⟩, (C34_explicit h0.toReports d false order (by omega) hm).1 ⟨hls, hlb, hmb⟩,
    Hist.cons (Step.setSky _ _ _) (Hist.nil _), fun {calibrate} hr {m} hM hovf ho {n R} hR hi => ?_⟩
  obtain ⟨v, hovf⟩ := hovf
  obtain ⟨i, hi, l, l1, l2, hvis⟩ := hi
  obtain ⟨L, rfl⟩ : ∃ L : ℕ, ls1 = L := ⟨ls1.toNat, by omega⟩
  have hcl : ((⟨s1, b, d, false, lmax, mmax, order, []⟩ : Conv).cfg.lmax : ℤ) = lmax := by
    show ((lmax.toNat : ℕ) : ℤ) = lmax; omega
  have hsym : |wignerD l 0 (-(L : ℤ)) (genAngle (Tod.ringTheta (⟨s1, b, d, false, lmax, mmax, order, []⟩ : Conv).cfg (i : ℕ)))| =
      |wignerD l 0 L (genAngle (Tod.ringTheta (⟨s1, b, d, false, lmax, mmax, order, []⟩ : Conv).cfg (i : ℕ)))| := by
    have := wignerD_neg_neg l (m' := 0) (m := (L : ℤ)) (by simp) (by rw [abs_of_nonneg (by omega)]; omega)
      (genAngle (Tod.ringTheta (⟨s1, b, d, false, lmax, mmax, order, []⟩ : Conv).cfg (i : ℕ)))
    rw [neg_zero] at this
    rw [this, abs_mul, abs_pow, abs_neg, abs_one, one_pow, one_mul]
  refine missing_job_undefined hr (by show 0 < lmax; omega) (by show lmax < _; omega) (by show mmax ≤ lmax; omega) hM hovf ho hR hi (mb := 0)
    (ms := L) (l := max l (L + 1)) (by show ((0 : ℕ) : ℤ) ≤ mmax; omega) (by show ((L : ℕ) : ℤ) ≤ lmax; omega)
    (le_trans (kfirst_le hovf (by omega) (by omega) (by omega) (by omega) (by omega) hvis (by rw [Nat.cast_zero, hsym]; exact hvis)) (le_max_left _ _))
    (by show ((max l (L + 1) : ℕ) : ℤ) ≤ lmax; push_cast; omega) ?_
  intro p hp
  have hoob := get_past_end h1.sT (by omega) (l := ((max l (L + 1) : ℕ) : ℤ)) (by push_cast; omega)
  unfold prods Sky.exps at hp
  dsimp only at hp
  rw [hoob] at hp
  simp at hp

/-! ## witnesses -/

theorem wBasic : MachBasic wMach := ⟨wMach_ok.sort, wMach_ok.nan, wMach_ok.verb⟩

theorem wReaches : Tod.Reaches wMach.nbin 3 Tod.demoRows :=
  Tod.reaches_of_balanced (by norm_num) Tod.demo_balanced (fun r _ => by simp [Tod.demoRows])

/-- Ready whatever the limits: no calibration, fresh weights. -/
theorem wReady (w : World) {c : Conv} (h1 : 0 ≤ c.lmax) (h2 : 0 ≤ c.mmax) (h3 : 0 ≤ c.order) (h4 : c.wgt = []) : Ready w c false :=
  ⟨h1, h2, h3, Or.inl h4, fun h => by cases h⟩

/-- Schedules that run every loop in order on one thread. -/
def seqOrders (lmax npsi : ℕ) : Orders :=
  ⟨⟨fun _ => List.range (lmax + 1), fun _ _ => 0⟩, List.range (2 * lmax + 1), List.range npsi, List.range (2 * lmax + 1),
    List.range (2 * lmax + 1), List.range npsi, List.range (2 * lmax + 1)⟩

theorem seqOrders_ok (lmax npsi : ℕ) : (seqOrders lmax npsi).OK lmax npsi :=
  ⟨fun _ => List.Perm.refl _, List.Perm.refl _, List.Perm.refl _, List.Perm.refl _, List.Perm.refl _, List.Perm.refl _, List.Perm.refl _⟩

/-- `lmax = 0` on three ranks. -/
example : ∃ c, ctor wWorld 0 0 0 true 0 1 1 = ok c ∧
    Spmd.runAll 3 (fun r => c.convolve wMach wWorld false 3 r (Tod.demoRows r)) =
      .finished (List.replicate 3 (Res.throw "lmax too small")) := by
  obtain ⟨c, h1, h2⟩ := C34_lmax_zero_throws wLoaded.toReports (by norm_num) (by norm_num) 0 true (mmax := 1) (order := 1)
    (by norm_num) (by norm_num)
  have hc : c = ⟨0, 0, 0, true, 0, 1, 1, []⟩ := by
    have := (C34_explicit wLoaded.toReports 0 true 1 (lmax := 0) (mmax := 1) (by norm_num) (by norm_num)).1 (by norm_num)
    rw [this] at h1; injection h1 with h1; exact h1.symm
  exact ⟨c, h1, h2 (by subst hc; exact wReady _ (by norm_num) (by norm_num) (by norm_num) rfl) wBasic wReaches⟩

/-- Overflow undefined, limits in order. -/
example : Spmd.runAll 3 (fun r => (⟨0, 0, 0, true, 2, 2, 1, []⟩ : Conv).convolve { wMach with ovf := ub "overflow" } wWorld false 3 r
    (Tod.demoRows r)) = .finished (List.replicate 3 (ub "overflow")) :=
  C38_every_convolution_overflows (c := ⟨0, 0, 0, true, 2, 2, 1, []⟩) (wReady _ (by norm_num) (by norm_num) (by norm_num) rfl) (by norm_num)
    (m := { wMach with ovf := ub "overflow" }) ⟨wMach_ok.sort, wMach_ok.nan, wMach_ok.verb⟩ rfl (fun r => (wMach_ok.orders r).sc) wReaches

/-- `beammmax = 2 > lmax = 1`. -/
example : ∃ c, ctor wWorld 0 0 0 true 1 2 1 = ok c ∧
    ∀ r < 3, Spmd.HasUB 3 (fun r => c.convolve { wMach with orders := fun _ => seqOrders 1 3 } wWorld false 3 r (Tod.demoRows r)) r := by
  obtain ⟨c, h1, h2⟩ := C34_mmax_above_lmax_job_undefined wLoaded.toReports 0 true (lmax := 1) (mmax := 2) (order := 1)
    (by norm_num) (by norm_num) (by norm_num) (by norm_num) (by norm_num)
  have hc : c = ⟨0, 0, 0, true, 1, 2, 1, []⟩ := by
    have := (C34_explicit wLoaded.toReports 0 true 1 (lmax := 1) (mmax := 2) (by norm_num) (by norm_num)).1 (by norm_num)
    rw [this] at h1; injection h1 with h1; exact h1.symm
  subst hc
  exact ⟨_, h1, h2 (wReady _ (by norm_num) (by norm_num) (by norm_num) rfl) (m := { wMach with orders := fun _ => seqOrders 1 3 })
    ⟨wMach_ok.sort, wMach_ok.nan, wMach_ok.verb⟩ ⟨0, rfl⟩ (fun _ => seqOrders_ok 1 3) wReaches⟩

/-- One of the rings a sample reads is not at a pole (`lmax = 2`, order 1). -/
theorem touched_off_pole : ∃ i, Tod.Touched (⟨2, 2, 1⟩ : Tod.Cfg) 3 Tod.demoRows i ∧ Visible ⟨2, 2, 1⟩ i 1 0 1 := by
  obtain ⟨i0, hi0⟩ := Tod.betaToItheta_real ⟨2, 2, 1⟩ (Tod.foldGt ((2 * (0 : ℕ) + 1) * (Real.pi / 16)))
  have hr := Tod.betaToItheta_range hi0
  have ht : ∀ k : ℕ, k < 2 → Tod.Touched (⟨2, 2, 1⟩ : Tod.Cfg) 3 Tod.demoRows (i0.toNat + k) := fun k hk =>
    ⟨0, by norm_num, ⟨1, (2 * (0 : ℕ) + 1) * (Real.pi / 16), 2, 0, 0⟩, by simp [Tod.demoRows], i0, hi0, by push_cast; omega, by
      simp only [Tod.Cfg.npoints]; push_cast; omega⟩
  have hth : ∀ j : ℕ, Tod.ringTheta ⟨2, 2, 1⟩ (j : ℤ) = ((5 - (j : ℤ) : ℤ) : ℝ) * (Real.pi / 3) := by
    intro j
    unfold Tod.ringTheta
    rw [Tod.theta0_real, Tod.dtheta_real]
    simp only [Tod.Cfg.halfmargin, Tod.Cfg.npoints]
    push_cast
    ring
  have key : ∀ j : ℕ, ¬ (3 : ℤ) ∣ (5 - (j : ℤ)) → Visible ⟨2, 2, 1⟩ j 1 0 1 := by
    intro j hj
    refine visible_top (L := 1) ?_
    set x := Tod.ringTheta ⟨2, 2, 1⟩ (j : ℕ) with hx
    have h3 : Real.sin (3 * x) = 0 := by
      rw [hx, hth, show 3 * (((5 - (j : ℤ) : ℤ) : ℝ) * (Real.pi / 3)) = ((5 - (j : ℤ) : ℤ) : ℝ) * Real.pi by ring]
      exact Real.sin_int_mul_pi _
    have hs : Real.sin x ≠ 0 := by
      intro h0
      obtain ⟨k, hk⟩ := Real.sin_eq_zero_iff.mp h0
      apply hj
      refine ⟨k, ?_⟩
      have : ((5 - (j : ℤ) : ℤ) : ℝ) = ((3 * k : ℤ) : ℝ) := by
        rw [hx, hth] at hk
        have hp := Real.pi_ne_zero
        push_cast at hk ⊢
        field_simp at hk
        linarith
      exact_mod_cast this
    have hsq : Real.sin x ^ 2 = 3 / 4 := by
      rw [Real.sin_three_mul] at h3
      have : Real.sin x * (3 - 4 * Real.sin x ^ 2) = 0 := by linarith
      rcases mul_eq_zero.mp this with h | h
      · exact absurd h hs
      · linarith
    have habs : 4 / 5 ≤ |Real.sin x| := by
      by_contra hlt
      push Not at hlt
      have : |Real.sin x| ^ 2 < (4 / 5) ^ 2 := by
        apply pow_lt_pow_left₀ hlt (abs_nonneg _) (by norm_num)
      rw [sq_abs, hsq] at this
      norm_num at this
    obtain ⟨k, hk⟩ := genAngle_close x
    have e1 : Real.sin (x - 2 * Real.pi * k) = Real.sin x := by
      rw [show x - 2 * Real.pi * k = x - k * (2 * Real.pi) by ring]; exact Real.sin_sub_int_mul_two_pi x k
    have e2 := Real.abs_sin_sub_sin_le (genAngle x) (x - 2 * Real.pi * k)
    rw [e1] at e2
    have e3 : 1 / 2 ≤ |Real.sin (genAngle x)| := by
      have := abs_sub_abs_le_abs_sub (Real.sin x) (Real.sin (genAngle x))
      rw [abs_sub_comm] at this
      have : (1 : ℝ) / 10 ^ 15 ≤ 1 / 10 := by norm_num
      linarith
    have e4 : 1 ≤ √((2 * 1).choose 1 : ℝ) := by
      rw [Real.one_le_sqrt]; norm_num [Nat.choose]
    rw [pow_one, abs_div, abs_of_pos (by norm_num : (0:ℝ) < 2)]
    have e5 : max convAcc (tiny (⟨2, 2, 1⟩ : Tod.Cfg).lmax) < 1 / 4 := by
      rw [max_lt_iff]
      constructor
      · unfold convAcc; norm_num
      · unfold tiny
        have : (2 : ℝ) ^ (-360 : ℤ) ≤ 2 ^ (-60 : ℤ) := zpow_le_zpow_right₀ (by norm_num) (by norm_num)
        have h3 : (2 : ℝ) ^ (-60 : ℤ) = 1 / 2 ^ 60 := by norm_num
        rw [h3] at this
        push_cast
        nlinarith
    nlinarith [Real.sqrt_nonneg ((2 * 1).choose 1 : ℝ)]
  by_cases hd : (3 : ℤ) ∣ (5 - ((i0.toNat + 0 : ℕ) : ℤ))
  · exact ⟨i0.toNat + 1, ht 1 (by norm_num), key _ (by push_cast at hd ⊢; omega)⟩
  · exact ⟨i0.toNat + 0, ht 0 (by norm_num), key _ hd⟩

/-- The sky 1 has `lmax = 1`, the beam 0 has `lmax = 2`: default limits. -/
example : ∃ c, ctor wWorld 1 0 0 false (-1) (-1) 1 = ok c ∧ c.lmax = 2 ∧
    ∃ r < 3, Spmd.HasUB 3 (fun r => c.convolve wMach wWorld false 3 r (Tod.demoRows r)) r := by
  have hl : Loaded wWorld 1 0 false 1 2 2 :=
    ⟨⟨rfl, rfl, rfl⟩, ⟨by refine ⟨?_, ?_, ?_⟩ <;> simp [wWorld, numAlms], rfl, rfl⟩, wLoaded.bT, (fun h => by cases h), (fun h => by cases h)⟩
  obtain ⟨c, h1, h2, h3⟩ := C34_default_lmax_job_undefined hl 0 1 (by norm_num) (by norm_num) (by norm_num) (by norm_num) (by norm_num)
  have hc : c = ⟨1, 0, 0, false, 2, 2, 1, []⟩ := by
    rw [ctor_eq hl.toReports] at h1
    unfold pickLmax pickMmax at h1
    rw [if_pos (by norm_num), if_pos (by norm_num)] at h1
    cases h1; rfl
  subst hc
  obtain ⟨i, hi, hv⟩ := touched_off_pole
  exact ⟨_, h1, h2, h3 (wReady _ (by norm_num) (by norm_num) (by norm_num) rfl) wBasic ⟨0, rfl⟩ (fun r => (wMach_ok.orders r).sc) wReaches
    ⟨i, hi, 1, by norm_num, by norm_num, hv⟩⟩

end Verif.Obj
