import Verif.Api.Conv

/-! # C34, C44: limits of a convolver and repeated use -/

namespace Verif.Obj
open Verif Res Verif.Harm Verif.Num

/-! ## C34: construction -/

/-- The objects report these limits (`get_lmax`, `get_mmax`), as after `read`. -/
structure Reports (w : World) (s b : ℕ) (ls lb mb : ℤ) : Prop where
  sky : (w.sky s).lmax = some ls
  beam : (w.beam b).lmax = some lb
  mbeam : (w.beam b).mmax = some mb

theorem ctor_eq {w : World} {s b : ℕ} {ls lb mb : ℤ} (h : Reports w s b ls lb mb) (d : ℕ) (pol : Bool) (lmax mmax order : ℤ) :
    ctor w s b d pol lmax mmax order = (do
      let L ← pickLmax lmax ls lb
      let M ← pickMmax mmax mb
      ok ⟨s, b, d, pol, L, M, order, []⟩) := by
  unfold ctor
  rw [h.sky, h.beam, h.mbeam]
  rfl

/-- C34, explicit limits: the constructor succeeds exactly when both expansions reach `lmax` and the beam reaches
`beammmax`, and throws otherwise. -/
theorem C34_explicit {w : World} {s b : ℕ} {ls lb mb : ℤ} (h : Reports w s b ls lb mb) (d : ℕ) (pol : Bool) {lmax mmax : ℤ}
    (order : ℤ) (hl : 0 ≤ lmax) (hm : 0 ≤ mmax) :
    (lmax ≤ ls ∧ lmax ≤ lb ∧ mmax ≤ mb → ctor w s b d pol lmax mmax order = ok ⟨s, b, d, pol, lmax, mmax, order, []⟩) ∧
    (¬(lmax ≤ ls ∧ lmax ≤ lb ∧ mmax ≤ mb) → ∃ msg, ctor w s b d pol lmax mmax order = throw msg) := by
  rw [ctor_eq h]
  unfold pickLmax pickMmax
  rw [if_neg (show ¬lmax < 0 by omega), if_neg (show ¬mmax < 0 by omega)]
  refine ⟨fun ⟨h1, h2, h3⟩ => ?_, fun hn => ?_⟩
  · rw [if_neg (by omega), if_neg (by omega)]; rfl
  · by_cases h1 : ls < lmax ∨ lb < lmax
    · rw [if_pos h1]; exact ⟨_, rfl⟩
    · rw [if_neg h1, if_pos (by omega)]; exact ⟨_, rfl⟩

/-- C34 for an explicit `lmax`: a constructed convolver has the requested `lmax`, which both expansions reach, and the
requested `beammmax` (or, for a negative request, that of the beam), which the beam reaches. -/
theorem C34_limits_partial {w : World} {s b : ℕ} {ls lb mb : ℤ} (h : Reports w s b ls lb mb) (d : ℕ) (pol : Bool)
    {lmax mmax order : ℤ} (hl : 0 ≤ lmax) {c : Conv} (hc : ctor w s b d pol lmax mmax order = ok c) :
    c.lmax = lmax ∧ c.lmax ≤ min ls lb ∧ c.mmax = (if mmax < 0 then mb else mmax) ∧ c.mmax ≤ mb ∧
      c.s = s ∧ c.b = b ∧ c.d = d ∧ c.pol = pol ∧ c.order = order := by
  rw [ctor_eq h] at hc
  unfold pickLmax pickMmax at hc
  rw [if_neg (by omega)] at hc
  by_cases h1 : ls < lmax ∨ lb < lmax
  · rw [if_pos h1] at hc; cases hc
  · rw [if_neg h1, ok_bind] at hc
    have hmin : lmax ≤ min ls lb := by omega
    by_cases h2 : mmax < 0
    · rw [if_pos h2] at hc
      cases hc
      exact ⟨rfl, hmin, (if_pos h2).symm, le_refl _, rfl, rfl, rfl, rfl, rfl⟩
    · rw [if_neg h2] at hc
      by_cases h3 : mb < mmax
      · rw [if_pos h3] at hc; cases hc
      · rw [if_neg h3] at hc
        cases hc
        exact ⟨rfl, hmin, (if_neg h2).symm, by show mmax ≤ mb; omega, rfl, rfl, rfl, rfl, rfl⟩

/-- C34 is false for a negative `lmax`: the constructor takes the larger of the two limits, so the result is consistent only
when sky and beam have the same `lmax`. -/
theorem C34_default_lmax {w : World} {s b : ℕ} {ls lb mb : ℤ} (h : Reports w s b ls lb mb) (d : ℕ) (pol : Bool)
    {lmax : ℤ} (order : ℤ) (hl : lmax < 0) :
    ∃ c, ctor w s b d pol lmax (-1) order = ok c ∧ c.lmax = max ls lb ∧ (c.lmax ≤ min ls lb ↔ ls = lb) := by
  rw [ctor_eq h]
  unfold pickLmax pickMmax
  rw [if_pos hl, if_pos (by norm_num)]
  refine ⟨_, rfl, max_comm _ _, ?_⟩
  show max lb ls ≤ min ls lb ↔ _
  omega

/-- An expansion with the given limits. -/
def Has (a : Alm ℂ) (l m : ℤ) : Prop := a.WF ∧ a.lmax = l ∧ a.mmax = m

/-- Sky and beam objects hold expansions with the limits they report, as after a successful `read` (`C30_sky_read`,
`C31_beam_same_partial`); the sky has all orders; the polarised parts are present if needed. -/
structure Loaded (w : World) (s b : ℕ) (pol : Bool) (ls lb mb : ℤ) : Prop extends Reports w s b ls lb mb where
  sT : Has (w.sky s).T ls ls
  bT : Has (w.beam b).T lb mb
  sP : pol = true → Has (w.sky s).G ls ls ∧ Has (w.sky s).C ls ls
  bP : pol = true → Has (w.beam b).G lb mb ∧ Has (w.beam b).C lb mb

theorem kernelOK_of {w : World} {s b : ℕ} {pol : Bool} {ls lb mb : ℤ} (h : Loaded w s b pol ls lb mb) {L M : ℤ}
    (h0 : 0 < L) (hL : L < 46341) (hM : 0 ≤ M) (hml : M ≤ L) (h1 : L ≤ ls) (h2 : L ≤ lb) (h3 : M ≤ mb) :
    KernelOK pol (w.sky s).exps (w.beam b).exps L.toNat (M.toNat + 1) := by
  have key : ∀ {a c : Alm ℂ}, Has a ls ls → Has c lb mb → Fits L.toNat (M.toNat + 1) a c := by
    rintro a c ⟨a1, a2, a3⟩ ⟨c1, c2, c3⟩
    exact ⟨a1, by rw [a2]; omega, by rw [a3]; omega, c1, by rw [c2]; omega, by rw [c3]; push_cast; omega⟩
  exact ⟨by omega, by omega, by omega, key h.sT h.bT, fun hp => key (h.sP hp).1 (h.bP hp).1,
    fun hp => key (h.sP hp).2 (h.bP hp).2⟩

/-- C34: for explicit limits with `beammmax ≤ lmax`, all coefficient accesses of the convolution are in bounds: for every set
of rings the kernel and the synthesis run to completion in a model in which every out-of-range access is an error.
(Bound 46341 on `lmax`: see C25.) -/
theorem C34_in_bounds_partial {w : World} {s b : ℕ} {pol : Bool} {ls lb mb : ℤ} (h : Loaded w s b pol ls lb mb) (d : ℕ)
    {lmax mmax order : ℤ} (h0 : 0 < lmax) (hL : lmax < 46341) (hM : 0 ≤ mmax) (hml : mmax ≤ lmax) {c : Conv}
    (hc : ctor w s b d pol lmax mmax order = ok c) (v : ℤ) {o : Orders} (ho : o.OK c.cfg.lmax c.cfg.npsi)
    {fft : List ℂ → List ℂ} (hf : IsBackward fft c.cfg.nphi) (ths : List ℝ) :
    ∃ T, kernelCubes (ok v) o fft c.pol (w.sky c.s).exps (w.beam c.b).exps c.cfg.lmax c.cfg.npsi ths convAcc = ok T := by
  obtain ⟨e1, e2, e3, e4, e5, e6, e7, e8, e9⟩ := C34_limits_partial h.toReports d pol (by omega) hc
  rw [if_neg (by omega)] at e3
  have hk : KernelOK c.pol (w.sky c.s).exps (w.beam c.b).exps c.cfg.lmax c.cfg.npsi := by
    have := kernelOK_of h (L := c.lmax) (M := c.mmax) (by omega) (by omega) (by omega) (by omega)
      (by omega) (by omega) (by omega)
    rw [e5, e6, e8]
    exact this
  obtain ⟨T, hT, -⟩ := kernelCubes_ok (ovf := ok v) rfl hk ho hf ths convAcc
  exact ⟨_, hT⟩

/-- The default `lmax` of C34 leads outside the sky: with a beam of larger `lmax` the access to the coefficient
`(l, m) = (lsky + 1, lsky + 1)`, which the kernel performs for every beam order `m'`, is past the end of the array. -/
theorem C34_default_out_of_bounds {w : World} {s b : ℕ} {pol : Bool} {ls lb mb : ℤ} (h : Loaded w s b pol ls lb mb) (d : ℕ)
    (order : ℤ) (hlt : ls < lb) :
    ∃ c, ctor w s b d pol (-1) (-1) order = ok c ∧ ls + 1 ≤ c.lmax ∧
      ∀ mbeam, (prods pol (w.sky s).exps (w.beam b).exps (ls + 1) (ls + 1) mbeam).IsUB := by
  obtain ⟨c, h1, h2, -⟩ := C34_default_lmax h.toReports d pol order (lmax := -1) (by norm_num)
  refine ⟨c, h1, by omega, fun mbeam => ?_⟩
  obtain ⟨⟨w1, w2, w3⟩, a2, a3⟩ := h.sT
  have hoob : (w.sky s).T.get (ls + 1) (ls + 1) = ub "read out of bounds" := by
    unfold Alm.get
    apply rd_ub
    right
    rw [a2, a3] at w3
    unfold numAlms at w3
    rw [if_pos (le_refl _)] at w3
    injection w3 with w3
    rw [a2, ← w3]
    unfold index indexL0
    have e1 : (ls + 1) * (2 * ls + 1 - (ls + 1)) = (ls + 1) * ls := by ring
    have e2 : (ls + 1) * (ls + 2) = (ls + 1) * ls + (ls + 1) * 2 := by ring
    rw [e1, e2, Int.add_mul_ediv_right _ _ (by norm_num)]
    simp
  unfold prods Sky.exps
  dsimp only
  rw [hoob]
  cases pol <;> simp [IsUB]

theorem foldRes_ok_mem {σ β : Type} {f : σ → β → Res σ} : ∀ {xs : List β} {s t : σ}, foldRes f s xs = ok t →
    ∀ x ∈ xs, ∃ s' t', f s' x = ok t' := by
  intro xs
  induction xs with
  | nil => intro s t _ x hx; simp at hx
  | cons y ys ih =>
    intro s t h x hx
    rw [foldRes_cons] at h
    obtain ⟨s1, h1, h2⟩ := bind_eq_ok.mp h
    rcases List.mem_cons.mp hx with rfl | hx
    · exact ⟨s, s1, h1⟩
    · exact ih h2 x hx

theorem forL_ok_mem {σ β : Type} {f : β → σ → Res σ} {xs : List β} {s t : σ} (h : forL xs f s = ok t) {x : β} (hx : x ∈ xs) :
    ∃ s' t', f x s' = ok t' := foldRes_ok_mem (f := fun s x => f x s) h x hx

/-- C34: `beammmax ≤ lmax` is not checked.  With a larger `beammmax` the convolution never completes without an
out-of-range access (to the tables of the synthesis), whatever the expansions. -/
theorem C34_mmax_above_lmax_undefined (ovf : Res ℤ) {o : Orders} (fft : List ℂ → List ℂ) (pol : Bool) (s b : Exps)
    {lmax mmax : ℕ} (hgt : lmax < mmax) (ho : o.OK lmax (mmax + 1)) (ths : List ℝ) (eps : ℝ) :
    (∀ T, kernelCubes ovf o fft pol s b lmax (mmax + 1) ths eps ≠ ok T) ∧
    (∀ (w : World) (si bi d : ℕ) (order ls lb mb : ℤ), Reports w si bi ls lb mb → lmax ≤ ls → lmax ≤ lb → mmax ≤ mb →
      ∃ c, ctor w si bi d pol lmax mmax order = ok c ∧ c.cfg = ⟨lmax, mmax, order.toNat⟩) := by
  refine ⟨fun T h => ?_, fun w si bi d order ls lb mb hr h1 h2 h3 =>
    ⟨_, (C34_explicit hr d pol order (by omega) (by omega)).1 ⟨h1, h2, h3⟩, by simp [Conv.cfg]⟩⟩
  unfold kernelCubes at h
  rw [bind_eq_ok] at h
  obtain ⟨C, -, h⟩ := h
  rw [bind_eq_ok] at h
  obtain ⟨T1, h, -⟩ := h
  unfold todAnnulus at h
  rw [bind_eq_ok] at h
  obtain ⟨C', -, h⟩ := h
  rw [bind_eq_ok] at h
  obtain ⟨tod, -, h⟩ := h
  unfold annulusC at h
  have hmem : (0 : ℕ) ∈ o.C1 := ho.C1.mem_iff.mpr (by simp)
  obtain ⟨s', t', h⟩ := forL_ok_mem h hmem
  rw [bind_eq_ok] at h
  obtain ⟨c0, -, h⟩ := h
  rw [bind_eq_ok] at h
  obtain ⟨s0, -, h⟩ := h
  obtain ⟨s'', t'', h⟩ := forL_ok_mem h (x := lmax + 1) (by simp; omega)
  rw [bind_eq_ok] at h
  obtain ⟨c1, h, -⟩ := h
  rw [rd_ub (by right; simp [csTab]; omega)] at h
  cases h

/-- C34: the constructor does not check the polarisation of its inputs.  A polarised convolver on objects read without
polarisation (whose `G` is the default expansion with one coefficient) is accepted, and reads past the end. -/
theorem C34_pol_unchecked {w : World} {s b : ℕ} {ls lb mb : ℤ} (h : Loaded w s b false ls lb mb) {junk : ℂ}
    (hG : (w.sky s).G = almDefault junk) (d : ℕ) (order : ℤ) {lmax : ℤ} (h1 : 1 ≤ lmax) (h2 : lmax ≤ ls) (h3 : lmax ≤ lb) :
    (∃ c, ctor w s b d true lmax (-1) order = ok c) ∧
      ∀ mbeam, (prods true (w.sky s).exps (w.beam b).exps 1 0 mbeam).IsUB := by
  constructor
  · rw [ctor_eq h.toReports]
    unfold pickLmax pickMmax
    rw [if_neg (by omega), if_neg (by omega), if_pos (by norm_num)]
    exact ⟨_, rfl⟩
  · intro mbeam
    obtain ⟨v, hv⟩ : ∃ v, (w.sky s).T.get 1 0 = ok v := by
      obtain ⟨a1, a2, a3⟩ := h.sT
      exact Alm.get_ok a1 ⟨by omega, by omega, by omega, by omega⟩
    have hoob : (w.sky s).G.get 1 0 = ub "read out of bounds" := by
      rw [hG]
      unfold Alm.get
      apply rd_ub
      right
      simp [almDefault, index, indexL0]
    unfold prods Sky.exps
    dsimp only
    rw [hv, hoob]
    simp [IsUB]

/-! ## C44: repeated use -/

/-- Argument of the last `set_sky` of a history, or the one given to the constructor. -/
def curSky (s : ℕ) : List Op → ℕ
  | [] => s
  | .setSky s' :: ops => curSky s' ops
  | _ :: ops => curSky s ops

/-- Argument of the last `set_beam`. -/
def curBeam (b : ℕ) : List Op → ℕ
  | [] => b
  | .setBeam b' :: ops => curBeam b' ops
  | _ :: ops => curBeam b ops

/-- Argument of the last `set_detector`. -/
def curDet (d : ℕ) : List Op → ℕ
  | [] => d
  | .setDet d' :: ops => curDet d' ops
  | _ :: ops => curDet d ops

/-- What never changes, and the weight cache. -/
theorem hist_inv {x y : World × Conv} {ops : List Op} (h : Hist x ops y) (ho : 0 ≤ x.2.order)
    (hx : x.2.wgt = [] ∨ x.2.wgt = Tod.baseWgt (x.2.order + 1).toNat) :
    y.2.pol = x.2.pol ∧ y.2.lmax = x.2.lmax ∧ y.2.mmax = x.2.mmax ∧ y.2.order = x.2.order ∧
      y.2.s = curSky x.2.s ops ∧ y.2.b = curBeam x.2.b ops ∧ y.2.d = curDet x.2.d ops ∧
      (y.2.wgt = [] ∨ y.2.wgt = Tod.baseWgt (x.2.order + 1).toNat) := by
  induction h with
  | nil x => exact ⟨rfl, rfl, rfl, rfl, rfl, rfl, rfl, hx⟩
  | cons h t ih =>
    cases h with
    | setSky w c s => exact ih ho hx
    | setBeam w c s => exact ih ho hx
    | setDet w c s => exact ih ho hx
    | edit w c w' => exact ih ho hx
    | runNone w c => exact ih ho hx
    | runInit w c wgt hw =>
      refine ih ho ?_
      right
      show wgt = _
      unfold weightInit at hw
      split at hw
      · injection hw with hw; exact hw.symm
      · rename_i hne
        split at hw
        · cases hw
        · injection hw with hw
          rcases hx with hx | hx
          · exfalso; apply hne; show c.wgt.length = 0; rw [show c.wgt = [] from hx]; rfl
          · rw [← hw]; exact hx

theorem weightInit_of {wgt : List ℝ} {N : ℕ} (h : wgt = [] ∨ wgt = Tod.baseWgt N) : weightInit wgt N = ok (Tod.baseWgt N) := by
  unfold weightInit
  rcases h with h | h
  · rw [if_pos (by rw [h]; rfl)]
  · by_cases h0 : wgt.length = 0
    · rw [if_pos h0]
    · rw [if_neg h0, if_neg (by rw [h]; simp [Tod.baseWgt]), h]

/-- C44 (explicit limits): after any history of calls on a convolver, with arbitrary changes of the objects in between, a call
of `convolve` runs the same program as on a convolver newly constructed for the current sky, beam and detector with the same
arguments, provided that construction succeeds.  In particular the cached weights never matter. -/
theorem C44_history_partial {w0 : World} {s0 b0 d0 : ℕ} {pol : Bool} {lmax mmax order : ℤ} (hl : 0 ≤ lmax) (hm : 0 ≤ mmax)
    (ho : 0 ≤ order) {c0 : Conv} (hc0 : ctor w0 s0 b0 d0 pol lmax mmax order = ok c0) {ops : List Op} {w : World} {c : Conv}
    (hh : Hist (w0, c0) ops (w, c)) {c' : Conv}
    (hc' : ctor w (curSky s0 ops) (curBeam b0 ops) (curDet d0 ops) pol lmax mmax order = ok c') (m : Mach) (calibrate : Bool)
    (cores me : ℕ) (rows : List (Tod.Row ℝ)) :
    c.convolve m w calibrate cores me rows = c'.convolve m w calibrate cores me rows := by
  have key : ∀ {w : World} {s b d : ℕ} {c : Conv}, ctor w s b d pol lmax mmax order = ok c →
      c = ⟨s, b, d, pol, lmax, mmax, order, []⟩ := by
    intro w s b d c h
    unfold ctor at h
    obtain ⟨ls, -, h⟩ := bind_eq_ok.mp h
    obtain ⟨lb, -, h⟩ := bind_eq_ok.mp h
    obtain ⟨L, hL, h⟩ := bind_eq_ok.mp h
    obtain ⟨mb, -, h⟩ := bind_eq_ok.mp h
    obtain ⟨M, hM, h⟩ := bind_eq_ok.mp h
    unfold pickLmax at hL
    unfold pickMmax at hM
    rw [if_neg (by omega)] at hL hM
    split at hL
    · cases hL
    split at hM
    · cases hM
    cases hL; cases hM; cases h
    rfl
  have e0 := key hc0
  have e' := key hc'
  obtain ⟨i1, i2, i3, i4, i5, i6, i7, i8⟩ := hist_inv hh (by rw [e0]; exact ho) (by rw [e0]; exact Or.inl rfl)
  subst e0
  dsimp only at i1 i2 i3 i4 i5 i6 i7 i8
  have hN : c.cfg.npoints = (order + 1).toNat := by
    unfold Conv.cfg Tod.Cfg.npoints
    rw [i4]; dsimp only; omega
  have hN' : c'.cfg.npoints = (order + 1).toNat := by
    unfold Conv.cfg Tod.Cfg.npoints
    rw [e']; dsimp only; omega
  have hcfg : c.cfg = c'.cfg := by unfold Conv.cfg; rw [i2, i3, i4, e']
  have henv : c.env m w calibrate = c'.env m w calibrate := by
    unfold Conv.env
    rw [hcfg, i1, i5, i6, i7, e']
  unfold Conv.convolve
  rw [hN, hN', weightInit_of i8, weightInit_of (Or.inl (by rw [e'])), henv]
  dsimp only
  rw [i2, i3, i4, i6, i7, e']

/-- C44 for all ranks together: the collective run after any histories of the ranks is that of fresh convolvers. -/
theorem C44_collective_partial {n : ℕ} {w0 w : ℕ → World} {s0 b0 d0 : ℕ → ℕ} {pol : Bool} {lmax mmax order : ℤ} (hl : 0 ≤ lmax)
    (hm : 0 ≤ mmax) (ho : 0 ≤ order) {c0 c c' : ℕ → Conv} {ops : ℕ → List Op}
    (hc0 : ∀ r, ctor (w0 r) (s0 r) (b0 r) (d0 r) pol lmax mmax order = ok (c0 r))
    (hh : ∀ r, Hist (w0 r, c0 r) (ops r) (w r, c r))
    (hc' : ∀ r, ctor (w r) (curSky (s0 r) (ops r)) (curBeam (b0 r) (ops r)) (curDet (d0 r) (ops r)) pol lmax mmax order = ok (c' r))
    (m : ℕ → Mach) (calibrate : Bool) (R : ℕ → List (Tod.Row ℝ)) :
    Spmd.runAll n (fun r => (c r).convolve (m r) (w r) calibrate n r (R r)) =
      Spmd.runAll n (fun r => (c' r).convolve (m r) (w r) calibrate n r (R r)) := by
  congr 1
  funext r
  exact C44_history_partial hl hm ho (hc0 r) (hh r) (hc' r) (m r) calibrate n r (R r)

/-- C44: the exception "base_wgt changed dimensions" is never thrown, in any history of a convolver. -/
theorem C44_weights_never_change {w0 : World} {s0 b0 d0 : ℕ} {pol : Bool} {lmax mmax order : ℤ} (ho : 0 ≤ order) {c0 : Conv}
    (hc0 : ctor w0 s0 b0 d0 pol lmax mmax order = ok c0) {ops : List Op} {w : World} {c : Conv}
    (hh : Hist (w0, c0) ops (w, c)) : weightInit c.wgt (c.order + 1).toNat = ok (Tod.baseWgt (order + 1).toNat) := by
  have : c0.order = order ∧ c0.wgt = [] := by
    unfold ctor at hc0
    obtain ⟨ls, -, h⟩ := bind_eq_ok.mp hc0
    obtain ⟨lb, -, h⟩ := bind_eq_ok.mp h
    obtain ⟨L, hL, h⟩ := bind_eq_ok.mp h
    obtain ⟨mb, -, h⟩ := bind_eq_ok.mp h
    obtain ⟨M, hM, h⟩ := bind_eq_ok.mp h
    cases h
    exact ⟨rfl, rfl⟩
  obtain ⟨-, -, -, i4, -, -, -, i8⟩ := hist_inv hh (by rw [this.1]; exact ho) (Or.inl this.2)
  dsimp only at i4 i8
  rw [i4, this.1]
  rw [this.1] at i8
  exact weightInit_of i8

/-- C44 is false when the limits of the new objects differ: `set_sky` with a sky of smaller `lmax` is accepted without a
check although a fresh construction throws, and the next convolution reads past the end of the new sky. -/
theorem C44_set_sky_unchecked {w : World} {s0 s1 b d : ℕ} {ls lb mb ls1 : ℤ} (h0 : Loaded w s0 b false ls lb mb)
    (h1 : Loaded w s1 b false ls1 lb mb) {lmax mmax order : ℤ} (hl : 0 ≤ lmax) (hm : 0 ≤ mmax) (hls : lmax ≤ ls) (hlb : lmax ≤ lb)
    (hmb : mmax ≤ mb) (hsmall : ls1 < lmax) :
    ∃ c0 c, ctor w s0 b d false lmax mmax order = ok c0 ∧ Hist (w, c0) [.setSky s1] (w, c) ∧ c.s = s1 ∧ c.lmax = lmax ∧
      (∃ msg, ctor w s1 b d false lmax mmax order = throw msg) ∧
      ∀ mbeam, (prods false (w.sky c.s).exps (w.beam c.b).exps (ls1 + 1) (ls1 + 1) mbeam).IsUB := by
  refine ⟨_, _, (C34_explicit h0.toReports d false order hl hm).1 ⟨hls, hlb, hmb⟩, Hist.cons (Step.setSky _ _ _) (Hist.nil _),
    rfl, rfl, (C34_explicit h1.toReports d false order hl hm).2 (by omega), fun mbeam => ?_⟩
  obtain ⟨c, -, -, h⟩ := C34_default_out_of_bounds h1 d order (by omega)
  exact h mbeam

/-- C44 is false for defaulted limits: they are fixed at construction, so after `set_beam` with another beam the limits are
not those of a fresh convolver. -/
theorem C44_stale_default_limits {w : World} {s b0 b1 d : ℕ} {ls lb mb lb1 mb1 : ℤ} (h0 : Reports w s b0 ls lb mb)
    (h1 : Reports w s b1 ls lb1 mb1) (pol : Bool) (order : ℤ) (hne : mb ≠ mb1) :
    ∃ c0 c c', ctor w s b0 d pol (-1) (-1) order = ok c0 ∧ Hist (w, c0) [.setBeam b1] (w, c) ∧
      ctor w s b1 d pol (-1) (-1) order = ok c' ∧ c.b = c'.b ∧ c.mmax ≠ c'.mmax := by
  have e := fun (b : ℕ) (lb mb : ℤ) (h : Reports w s b ls lb mb) => ctor_eq h d pol (-1) (-1) order
  refine ⟨⟨s, b0, d, pol, max lb ls, mb, order, []⟩, ⟨s, b1, d, pol, max lb ls, mb, order, []⟩,
    ⟨s, b1, d, pol, max lb1 ls, mb1, order, []⟩, ?_, Hist.cons (Step.setBeam _ _ b1) (Hist.nil _), ?_, rfl, hne⟩
  · rw [e _ _ _ h0]; rfl
  · rw [e _ _ _ h1]; rfl

/-- C44: a detector whose `epsilon` was never set makes a calibrated convolution undefined. -/
theorem C44_unset_epsilon_undefined (m : Mach) (w : World) (c : Conv) (cores me : ℕ) {rows : List (Tod.Row ℝ)} (hr : rows ≠ [])
    (hn : (w.beam c.b).normalized = false) (he : w.eps c.d = none) :
    ∃ why, c.convolve m w true cores me rows = Spmd.Prog.lift (ub why) := by
  unfold Conv.convolve
  split
  · exact ⟨_, rfl⟩
  · rw [if_pos ⟨hr, rfl, hn, he⟩]; exact ⟨_, rfl⟩

/-! ## witnesses -/

/-- Polarised objects with `lmax = 2`; sky 1 is smaller, beam 1 has fewer orders. -/
noncomputable def wWorld : World where
  sky := fun i => if i = 0 then ⟨wAlm, wAlm, wAlm, some 2, some true⟩
    else ⟨⟨1, 1, [1, 1, 1]⟩, almDefault 0, almDefault 0, some 1, some false⟩
  beam := fun i => if i = 0 then ⟨wAlm, wAlm, wAlm, false, some 2, some 2, some true⟩
    else ⟨⟨2, 1, [1, 1, 1, 1, 1]⟩, almDefault 0, almDefault 0, false, some 2, some 1, some false⟩
  eps := fun _ => none

theorem wLoaded : Loaded wWorld 0 0 true 2 2 2 := by
  have h : Has wAlm 2 2 := ⟨wAlm_wf, rfl, rfl⟩
  exact ⟨⟨rfl, rfl, rfl⟩, h, h, fun _ => ⟨h, h⟩, fun _ => ⟨h, h⟩⟩

theorem wLoaded_small : Loaded wWorld 1 0 false 1 2 2 :=
  ⟨⟨rfl, rfl, rfl⟩, ⟨by unfold Alm.WF; simp [wWorld, numAlms], rfl, rfl⟩, ⟨wAlm_wf, rfl, rfl⟩, (fun h => by cases h), fun h => by cases h⟩

theorem wLoaded_unpol : Loaded wWorld 0 0 false 2 2 2 :=
  ⟨⟨rfl, rfl, rfl⟩, wLoaded.sT, wLoaded.bT, (fun h => by cases h), fun h => by cases h⟩

/-- `C34_in_bounds_partial` applies to a polarised convolver with the full limits. -/
example (v : ℤ) (ths : List ℝ) : ∃ c T, ctor wWorld 0 0 0 true 2 2 1 = ok c ∧
    kernelCubes (ok v) wOrders (dft 5) c.pol (wWorld.sky c.s).exps (wWorld.beam c.b).exps c.cfg.lmax c.cfg.npsi ths convAcc = ok T := by
  have hc : ctor wWorld 0 0 0 true 2 2 1 = ok ⟨0, 0, 0, true, 2, 2, 1, []⟩ :=
    (C34_explicit wLoaded.toReports 0 true 1 (by norm_num) (by norm_num)).1 (by norm_num)
  obtain ⟨T, hT⟩ := C34_in_bounds_partial wLoaded 0 (by norm_num) (by norm_num) (by norm_num) (by norm_num) hc v
    (o := wOrders) wOrders_ok (fft := dft 5) (dft_backward 5) ths
  exact ⟨_, T, hc, hT⟩

/-- `C34_default_out_of_bounds`: sky of degree 1, beam of degree 2. -/
example : ∃ c, ctor wWorld 1 0 0 false (-1) (-1) 1 = ok c ∧ c.lmax = 2 := by
  obtain ⟨c, h1, h2, -⟩ := C34_default_lmax wLoaded_small.toReports 0 false 1 (lmax := -1) (by norm_num)
  exact ⟨c, h1, h2⟩

example : ∀ mbeam, (prods false (wWorld.sky 1).exps (wWorld.beam 0).exps 2 2 mbeam).IsUB := by
  obtain ⟨c, -, -, h⟩ := C34_default_out_of_bounds wLoaded_small 0 1 (by norm_num)
  exact h

/-- `C34_pol_unchecked`: an unpolarised sky in a polarised convolver. -/
example : (∃ c, ctor wWorld 1 0 0 true 1 (-1) 1 = ok c) ∧
    ∀ mbeam, (prods true (wWorld.sky 1).exps (wWorld.beam 0).exps 1 0 mbeam).IsUB :=
  C34_pol_unchecked wLoaded_small (junk := 0) rfl 0 1 (by norm_num) (by norm_num) (by norm_num)

/-- A history meeting `C44_history_partial`: a convolution, another beam, a change of the objects, a convolution. -/
example (w : World) (hw : w.sky = wWorld.sky ∧ w.beam = wWorld.beam) : ∃ c0 c c', ctor wWorld 0 0 0 true 2 1 1 = ok c0 ∧
    Hist (wWorld, c0) [.run, .setBeam 1, .setDet 7, .edit w, .run] (w, c) ∧ c.wgt ≠ [] ∧
    ctor w 0 1 7 true 2 1 1 = ok c' ∧
    ∀ m cal cores me rows, c.convolve m w cal cores me rows = c'.convolve m w cal cores me rows := by
  have h0 := (C34_explicit wLoaded.toReports 0 true 1 (lmax := 2) (mmax := 1) (by norm_num) (by norm_num)).1 (by norm_num)
  have hr : Reports w 0 1 2 2 1 := ⟨by rw [hw.1]; rfl, by rw [hw.2]; rfl, by rw [hw.2]; rfl⟩
  have h1 := (C34_explicit hr 7 true 1 (lmax := 2) (mmax := 1) (by norm_num) (by norm_num)).1 (by norm_num)
  have hh : Hist (wWorld, ⟨0, 0, 0, true, 2, 1, 1, []⟩) [.run, .setBeam 1, .setDet 7, .edit w, .run]
      (w, ⟨0, 1, 7, true, 2, 1, 1, Tod.baseWgt 2⟩) := by
    refine Hist.cons (Step.runInit _ _ (Tod.baseWgt 2) (by unfold weightInit; rfl)) ?_
    refine Hist.cons (Step.setBeam _ _ 1) ?_
    refine Hist.cons (Step.setDet _ _ 7) ?_
    refine Hist.cons (Step.edit _ _ w) ?_
    exact Hist.cons (Step.runNone _ _) (Hist.nil _)
  refine ⟨_, _, _, h0, hh, by simp [Tod.baseWgt], h1, ?_⟩
  intro m cal cores me rows
  exact C44_history_partial (by norm_num) (by norm_num) (by norm_num) h0 hh h1 m cal cores me rows

/-- `C44_set_sky_unchecked`. -/
example : ∃ c0 c, ctor wWorld 0 0 0 false 2 2 1 = ok c0 ∧ Hist (wWorld, c0) [.setSky 1] (wWorld, c) ∧ c.s = 1 ∧ c.lmax = 2 ∧
      (∃ msg, ctor wWorld 1 0 0 false 2 2 1 = throw msg) ∧
      ∀ mbeam, (prods false (wWorld.sky c.s).exps (wWorld.beam c.b).exps 2 2 mbeam).IsUB :=
  C44_set_sky_unchecked wLoaded_unpol wLoaded_small (by norm_num) (by norm_num) (by norm_num) (by norm_num) (by norm_num) (by norm_num)

/-- `C44_stale_default_limits`: beams with `mmax` 2 and 1. -/
example : ∃ c0 c c', ctor wWorld 0 0 0 false (-1) (-1) 1 = ok c0 ∧ Hist (wWorld, c0) [.setBeam 1] (wWorld, c) ∧
      ctor wWorld 0 1 0 false (-1) (-1) 1 = ok c' ∧ c.b = c'.b ∧ c.mmax ≠ c'.mmax :=
  C44_stale_default_limits (ls := 2) (lb := 2) (mb := 2) (lb1 := 2) (mb1 := 1) ⟨rfl, rfl, rfl⟩ ⟨rfl, rfl, rfl⟩ false 1 (by norm_num)

end Verif.Obj
