import Verif.Api.ConvFail
import Verif.Api.ReadProps
import Verif.Fft.Main
import Verif.Num.Bilinear

/-!
# C63: from files to the time-ordered data

Joins everything: reading sky and beam on all ranks (`skyRead`, `beamRead`), normalisation, construction of the convolver, the
distributed program with the kernel and the FFT plans of the library.
-/

namespace Verif.Obj
open Verif Res Verif.Harm Verif.Num Verif.Fits Finset

/-! ## Specification -/

/-- The coefficients of all orders of a real field from those of order `m ≥ 0`: `a_{l,-m} = (-1)^m conj a_{lm}`. -/
noncomputable def allOrders (f : ℕ → ℕ → ℂ) (l : ℕ) (m : ℤ) : ℂ :=
  if 0 ≤ m then f l m.natAbs else (-1) ^ m.natAbs * (starRingEnd ℂ) (f l m.natAbs)

/-- `Σ_X s^X_{lm} conj(b^X_{lm'})` over the components in use (HDU 2: temperature, 3: gradient, 4: curl). -/
noncomputable def pairing (pol : Bool) (S B : ℕ → ℕ → ℕ → ℂ) (l : ℕ) (m m' : ℤ) : ℂ :=
  ((hdus pol).map (fun h => allOrders (S h) l m * (starRingEnd ℂ) (allOrders (B h) l m'))).sum

/-- The total convolution of sky and beam: `Σ_{m'} Σ_m Σ_l (-1)^m d^l_{m'm}(θ) (Σ_X s^X_{lm} conj b^X_{lm'}) e^{imφ} e^{im'ψ}`. -/
noncomputable def convSpec (pol : Bool) (S B : ℕ → ℕ → ℕ → ℂ) (lmax mmax : ℕ) (theta phi psi : ℝ) : ℂ :=
  ∑ m' ∈ Icc (-(mmax : ℤ)) mmax, ∑ m ∈ Icc (-(lmax : ℤ)) lmax, ∑ l ∈ Icc (max m.natAbs m'.natAbs) lmax,
    (-1) ^ m.natAbs * (wignerD l m' m theta : ℂ) * pairing pol S B l m m' *
      Complex.exp (Complex.I * m * phi) * Complex.exp (Complex.I * m' * psi)

/-- Coefficients of order zero are real. -/
def RealCoefs (pol : Bool) (S : ℕ → ℕ → ℕ → ℂ) (lmax : ℕ) : Prop := ∀ h ∈ hdus pol, ∀ l ≤ lmax, (S h l 0).im = 0

/-- An expansion holds exactly the coefficients `f` up to the limits. -/
def Stores (f : ℕ → ℕ → ℂ) (L M : ℤ) (a : Alm ℂ) : Prop :=
  Has a L M ∧ ∀ l m : ℕ, Valid L M l m → a.get l m = ok (f l m)

/-- The component of an object that belongs to an HDU. -/
def Comps.at (c : Comps) (h : ℕ) : Alm ℂ := if h = 2 then c.T else if h = 3 then c.G else c.C

/-- The objects of a rank: sky `s` holds the coefficients `S` up to degree and order `ls`, beam `b` holds `B` up to degree `lb`
and order `mb`, and the objects report these limits. -/
structure Contents (w : World) (s b : ℕ) (pol : Bool) (S B : ℕ → ℕ → ℕ → ℂ) (ls lb mb : ℤ) : Prop extends
    Reports w s b ls lb mb where
  skyC : ∀ h ∈ hdus pol, Stores (S h) ls ls ((w.sky s).comps.at h)
  beamC : ∀ h ∈ hdus pol, Stores (B h) lb mb ((w.beam b).comps.at h)

/-- The machine does what C++, OpenMP and MPI promise, and the transform is `backward` of a plan of the library for length
`2 lmax + 1`, whatever it was used for before; overflowing conversions return some value. -/
structure MachLib (m : Mach) (c : Tod.Cfg) : Prop where
  sort : ∀ l : List (ℝ × ℕ), (m.srt l).Perm l ∧ (m.srt l).Pairwise (fun p q => p.1 ≤ q.1)
  sched : ∀ l, (m.sched l).Perm l
  nan : ∃ v, m.nan = ok v
  verb : Tod.SameVerb m.verb
  ovf : ∃ v, m.ovf = ok v
  orders : ∀ r, (m.orders r).OK c.lmax c.npsi
  fft : ∃ cost g p qs p', Fft.makeComplexPlan cost (2 * c.lmax + 1) g = ok p ∧
    (∀ q ∈ qs, q.2.length = 2 * c.lmax + 1) ∧ p.after qs = ok p' ∧ m.fft c.nphi = p'.backward

theorem MachLib.ok {m : Mach} {c : Tod.Cfg} (h : MachLib m c) (hl : c.lmax ≤ 100000) : MachOK m c := by
  refine ⟨h.sort, h.sched, h.nan, h.verb, h.ovf, h.orders, ?_⟩
  obtain ⟨cost, g, p, qs, p', h1, h2, h3, h4⟩ := h.fft
  obtain ⟨p0, e1, e2⟩ := Fft.C41_library_transform cost hl g
  have : p = p0 := by rw [h1] at e1; injection e1
  subst this
  obtain ⟨q, e3, e4⟩ := e2 qs h2
  have : p' = q := by rw [h3] at e3; injection e3
  subst this
  rw [h4]
  exact e4

/-! ## the objects of the ranks -/

theorem Stores.unique {f : ℕ → ℕ → ℂ} {L M : ℤ} {a b : Alm ℂ} (ha : Stores f L M a) (hb : Stores f L M b) : a = b := by
  obtain ⟨⟨a1, a2, a3⟩, a4⟩ := ha
  obtain ⟨⟨b1, b2, b3⟩, b4⟩ := hb
  refine Alm.ext_get a1 b1 (by rw [a2, b2]) (by rw [a3, b3]) (fun l m hv => ?_)
  rw [a2, a3] at hv
  have h0 := hv.1
  have h1 := hv.2.2.1
  have e1 : ((l.toNat : ℕ) : ℤ) = l := by omega
  have e2 : ((m.toNat : ℕ) : ℤ) = m := by omega
  have x := a4 l.toNat m.toNat (by rw [e1, e2]; exact hv)
  have y := b4 l.toNat m.toNat (by rw [e1, e2]; exact hv)
  rw [e1, e2] at x y
  rw [x, y]

theorem Stores.coef {f : ℕ → ℕ → ℂ} {L M : ℤ} {a : Alm ℂ} (h : Stores f L M a) {l m : ℕ} (h1 : m ≤ l) (h2 : (l : ℤ) ≤ L)
    (h3 : (m : ℤ) ≤ M) : Num.coef a l m = f l m := by
  unfold Num.coef
  rw [h.2 l m ⟨by omega, h3, by omega, h2⟩]

theorem Stores.coefZ {f : ℕ → ℕ → ℂ} {L M : ℤ} {a : Alm ℂ} (h : Stores f L M a) {l : ℕ} {m : ℤ} (h1 : m.natAbs ≤ l) (h2 : (l : ℤ) ≤ L)
    (h3 : (m.natAbs : ℤ) ≤ M) : Num.coefZ a l m = allOrders f l m := by
  unfold Num.coefZ allOrders
  rw [h.coef h1 h2 h3]

section
variable {w : World} {s b : ℕ} {pol : Bool} {S B : ℕ → ℕ → ℕ → ℂ} {ls lb mb : ℤ}

theorem Contents.loaded (h : Contents w s b pol S B ls lb mb) : Loaded w s b pol ls lb mb where
  toReports := h.toReports
  sT := (h.skyC 2 (by cases pol <;> simp [hdus])).1
  bT := (h.beamC 2 (by cases pol <;> simp [hdus])).1
  sP := fun hp => by
    subst hp
    exact ⟨(h.skyC 3 (by simp [hdus])).1, (h.skyC 4 (by simp [hdus])).1⟩
  bP := fun hp => by
    subst hp
    exact ⟨(h.beamC 3 (by simp [hdus])).1, (h.beamC 4 (by simp [hdus])).1⟩

theorem Contents.skyBeam (h : Contents w s b pol S B ls lb mb) {l : ℕ} {m m' : ℤ} (h1 : m.natAbs ≤ l) (h2 : m'.natAbs ≤ l)
    (h3 : (l : ℤ) ≤ ls) (h4 : (l : ℤ) ≤ lb) (h5 : (m'.natAbs : ℤ) ≤ mb) :
    Num.skyBeam pol (w.sky s).exps (w.beam b).exps l m m' = pairing pol S B l m m' := by
  have key : ∀ i ∈ hdus pol, Num.coefZ ((w.sky s).comps.at i) l m * (starRingEnd ℂ) (Num.coefZ ((w.beam b).comps.at i) l m') =
      allOrders (S i) l m * (starRingEnd ℂ) (allOrders (B i) l m') := by
    intro i hi
    rw [(h.skyC i hi).coefZ h1 h3 (by omega), (h.beamC i hi).coefZ h2 h4 h5]
  unfold Num.skyBeam pairing
  cases pol with
  | false =>
    rw [if_neg (by decide)]
    have := key 2 (by simp [hdus])
    simp only [hdus, Bool.false_eq_true, if_false, List.map_cons, List.map_nil, List.sum_cons, List.sum_nil]
    rw [← this]
    rfl
  | true =>
    rw [if_pos rfl]
    have e2 := key 2 (by simp [hdus])
    have e3 := key 3 (by simp [hdus])
    have e4 := key 4 (by simp [hdus])
    simp only [hdus, if_true, List.map_cons, List.map_nil, List.sum_cons, List.sum_nil]
    rw [← e2, ← e3, ← e4, add_zero]
    rfl

theorem Contents.realSky (h : Contents w s b pol S B ls lb mb) {lmax : ℕ} (h1 : (lmax : ℤ) ≤ ls) (h0 : 0 ≤ ls)
    (hr : RealCoefs pol S lmax) : Num.RealField pol lmax (w.sky s).exps := by
  have key : ∀ i ∈ hdus pol, ∀ l ≤ lmax, (Num.coef ((w.sky s).comps.at i) l 0).im = 0 := by
    intro i hi l hl
    rw [(h.skyC i hi).coef (by omega) (by omega) (by simpa using h0)]
    exact hr i hi l hl
  refine ⟨fun l hl => key 2 (by cases pol <;> simp [hdus]) l hl, fun hp l hl => ?_⟩
  subst hp
  exact ⟨key 3 (by simp [hdus]) l hl, key 4 (by simp [hdus]) l hl⟩

theorem Contents.realBeam (h : Contents w s b pol S B ls lb mb) {lmax : ℕ} (h1 : (lmax : ℤ) ≤ lb) (h0 : 0 ≤ mb)
    (hr : RealCoefs pol B lmax) : Num.RealField pol lmax (w.beam b).exps := by
  have key : ∀ i ∈ hdus pol, ∀ l ≤ lmax, (Num.coef ((w.beam b).comps.at i) l 0).im = 0 := by
    intro i hi l hl
    rw [(h.beamC i hi).coef (by omega) (by omega) (by simpa using h0)]
    exact hr i hi l hl
  refine ⟨fun l hl => key 2 (by cases pol <;> simp [hdus]) l hl, fun hp l hl => ?_⟩
  subst hp
  exact ⟨key 3 (by simp [hdus]) l hl, key 4 (by simp [hdus]) l hl⟩

/-- Ranks with the same contents multiply the same numbers, whatever unused components hold. -/
theorem Contents.prods {w' : World} (h : Contents w s b pol S B ls lb mb) (h' : Contents w' s b pol S B ls lb mb) :
    Num.prods pol (w.sky s).exps (w.beam b).exps = Num.prods pol (w'.sky s).exps (w'.beam b).exps := by
  have hs : ∀ i ∈ hdus pol, (w.sky s).comps.at i = (w'.sky s).comps.at i := fun i hi => (h.skyC i hi).unique (h'.skyC i hi)
  have hb : ∀ i ∈ hdus pol, (w.beam b).comps.at i = (w'.beam b).comps.at i := fun i hi => (h.beamC i hi).unique (h'.beamC i hi)
  have sT : (w.sky s).exps.T = (w'.sky s).exps.T := hs 2 (by cases pol <;> simp [hdus])
  have bT : (w.beam b).exps.T = (w'.beam b).exps.T := hb 2 (by cases pol <;> simp [hdus])
  funext i j k
  unfold Num.prods
  cases pol with
  | false => rw [if_neg (by decide), if_neg (by decide), sT, bT]
  | true =>
    have sG : (w.sky s).exps.G = (w'.sky s).exps.G := hs 3 (by simp [hdus])
    have bG : (w.beam b).exps.G = (w'.beam b).exps.G := hb 3 (by simp [hdus])
    have sC : (w.sky s).exps.C = (w'.sky s).exps.C := hs 4 (by simp [hdus])
    have bC : (w.beam b).exps.C = (w'.beam b).exps.C := hb 4 (by simp [hdus])
    rw [sT, bT, sG, bG, sC, bC]
end

/-- The kernel uses the expansions only through the products. -/
theorem accumulate_prods {pol : Bool} {s b s' b' : Exps} (h : Num.prods pol s b = Num.prods pol s' b') (ovf : Res ℤ) (sc : Sched)
    (lmax npsi : ℕ) (ths : List ℝ) (eps : ℝ) :
    accumulate ovf sc pol s b lmax npsi ths eps = accumulate ovf sc pol s' b' lmax npsi ths eps := by
  have ht : term pol s b = term pol s' b' := by
    funext lmax mbeam msky lat dsign dsb dmm dmmneg ii st
    unfold term
    rw [h]
  have hl : latBody pol s b = latBody pol s' b' := by
    funext lmax mbeam msky lat q
    unfold latBody
    rw [ht]
  have hm : mskyBody ovf pol s b = mskyBody ovf pol s' b' := by
    funext lmax nlat mbeam msky q
    unfold mskyBody
    rw [hl]
  unfold accumulate
  rw [hm]

theorem kernelCubes_prods {pol : Bool} {s b s' b' : Exps} (h : Num.prods pol s b = Num.prods pol s' b') (ovf : Res ℤ) (o : Orders)
    (fft : List ℂ → List ℂ) (lmax npsi : ℕ) (ths : List ℝ) (eps : ℝ) :
    kernelCubes ovf o fft pol s b lmax npsi ths eps = kernelCubes ovf o fft pol s' b' lmax npsi ths eps := by
  unfold kernelCubes
  rw [accumulate_prods h]

theorem kernelRings_prods {pol : Bool} {s b s' b' : Exps} (h : Num.prods pol s b = Num.prods pol s' b') (ovf : Res ℤ) (o : Orders)
    (fft : List ℂ → List ℂ) (c : Tod.Cfg) (eps : ℝ) :
    kernelRings ovf o fft pol s b c eps = kernelRings ovf o fft pol s' b' c eps := by
  funext mine
  unfold kernelRings
  rw [kernelCubes_prods h]

theorem ringOf_prods {pol : Bool} {s b s' b' : Exps} (h : Num.prods pol s b = Num.prods pol s' b') (ovf : Res ℤ) (o : Orders)
    (fft : List ℂ → List ℂ) (c : Tod.Cfg) (eps : ℝ) :
    ringOf ovf o fft pol s b c eps = ringOf ovf o fft pol s' b' c eps := by
  funext south θ
  unfold ringOf
  rw [kernelCubes_prods h]

/-- All ranks run `convolve` with the same environment. -/
theorem env_eq {w w' : World} {c : Conv} {S B : ℕ → ℕ → ℕ → ℂ} {ls lb mb : ℤ} (h : Contents w c.s c.b c.pol S B ls lb mb)
    (h' : Contents w' c.s c.b c.pol S B ls lb mb) (hn : (w.beam c.b).normalized = (w'.beam c.b).normalized)
    (he : w.eps c.d = w'.eps c.d) (m : Mach) (calibrate : Bool) :
    c.env m w calibrate = c.env m w' calibrate := by
  have hp := h.prods h'
  unfold Conv.env
  simp only [kernelRings_prods hp, ringOf_prods hp, hn, he]

/-! ## Property theorems -/

/-- Factor by which `convolve` multiplies all values: `2 / (1 + epsilon)` if calibration is requested and the beam is not
normalised. -/
noncomputable def outFactor (calibrate normalized : Bool) (eps : Option ℝ) : ℝ :=
  if calibrate && !normalized then 2 / (1 + eps.getD 0) else 1

/-- What a user may rely on when `convolve` is called on all ranks with sky coefficients `S` and beam coefficients `B`: it ends
in one of the four ways of C59, decided by the pointing `R` alone; and whenever it returns, row `i` of rank `r` keeps its
pointing, gets its global number, and a signal that is the total convolution (times `f`) at its pointing up to the bound of C61. -/
structure Delivers (nbin : ℕ) (pol : Bool) (S B : ℕ → ℕ → ℕ → ℂ) (lmax mmax order : ℕ) (f : ℝ) (n : ℕ) (R : ℕ → List (Tod.Row ℝ))
    (P : ℕ → Spmd.Prog ℝ (List (Tod.Row ℝ))) : Prop where
  throws : Spmd.runAll n P = .finished (List.replicate n (Res.throw "convolver::convolve: Illegal theta")) ↔
    ∀ r < n, ¬ Tod.LegalAt (R r)
  undef : (∃ r < n, Spmd.HasUB n P r) ↔ (∀ r < n, Tod.LegalAt (R r)) ∧
    ((∃ r < n, ∃ y ∈ R r, y.theta = Real.pi / 2) ∨ ¬ ∃ p, Tod.Cuts nbin n R p)
  hangs : Tod.Hangs n P ↔ ((∃ r < n, ¬ Tod.LegalAt (R r)) ∧ ∃ s < n, Tod.LegalAt (R s)) ∨
    (Tod.LegalOff n R ∧ ∃ p, Tod.Cuts nbin n R p ∧ (∃ r < n, R r ≠ []) ∧ ∃ s < n, Tod.Idle nbin n R p s)
  returns : (∃ v, Spmd.Returns n P v) ↔ Tod.LegalOff n R ∧ ∃ p, Tod.Cuts nbin n R p ∧
    ((∀ r < n, R r = []) ∨ ∀ s < n, ¬ Tod.Idle nbin n R p s)
  values : ∀ out, Spmd.Returns n P out → ∀ r < n, (out r).length = (R r).length ∧ ∀ i (hi : i < (R r).length),
    ∃ (σ : ℝ) (W : ℤ → ℤ → ℕ → Bool),
      (out r)[i]? = some ⟨(R r)[i].phi, (R r)[i].theta, (R r)[i].psi, σ, ((Tod.samples r R).length + i : ℕ)⟩ ∧
      (∀ m' m l, W m' m l = true → ∃ (ϑ : ℝ) (t : ℤ),
        |ϑ - ((R r)[i].theta - 2 * Real.pi * t)| ≤ Real.pi / (lmax + 1) * (order + 1) + 1 / 10 ^ 15 ∧
        (|wignerD l m' m ϑ| ≤ tau lmax (1 / 10 ^ 30) ∨ |wignerD l m' (-m) ϑ| ≤ tau lmax (1 / 10 ^ 30))) ∧
      ‖(σ : ℂ) - f * convSpec pol S B lmax mmax (R r)[i].theta (R r)[i].phi (R r)[i].psi‖ ≤
        |f| * ∑ m' ∈ Icc (-(mmax : ℤ)) mmax, ∑ m ∈ Icc (-(lmax : ℤ)) lmax, ∑ l ∈ Icc (max m.natAbs m'.natAbs) lmax,
          ‖pairing pol S B l m m'‖ * (termErr lmax (order + 1) l m + if W m' m l then wLambda (order + 1) else 0)

/-- **C63** for objects: on every rank sky and beam hold the same coefficients of real fields.  With explicit limits
`0 < lmax < 46341`, `0 ≤ beammmax ≤ lmax` within those of the objects, the constructor succeeds and `convolve` delivers the total
convolution of these coefficients. -/
theorem C63_objects {n : ℕ} (hn : 1 ≤ n) {w : ℕ → World} {s b d : ℕ} {pol : Bool} {S B : ℕ → ℕ → ℕ → ℂ} {ls lb mb : ℤ}
    (h : ∀ r, Contents (w r) s b pol S B ls lb mb) {normalized : Bool} (hnorm : ∀ r, ((w r).beam b).normalized = normalized)
    {eps : Option ℝ} (heps : ∀ r, (w r).eps d = eps) {calibrate : Bool} (hcal : calibrate = true → normalized = false → eps ≠ none)
    {lmax mmax order : ℕ} (h0 : 0 < lmax) (hL : lmax < 46341) (hml : mmax ≤ lmax) (ho : order ≤ 2 * lmax + 1)
    (h1 : (lmax : ℤ) ≤ ls) (h2 : (lmax : ℤ) ≤ lb) (h3 : (mmax : ℤ) ≤ mb) (hS : RealCoefs pol S lmax) (hB : RealCoefs pol B lmax)
    {m : Mach} (hm : MachLib m ⟨lmax, mmax, order⟩) (hnb : 0 < m.nbin) (R : ℕ → List (Tod.Row ℝ)) :
    ∃ c : Conv, (∀ r, ctor (w r) s b d pol lmax mmax order = ok c) ∧
      Delivers m.nbin pol S B lmax mmax order (outFactor calibrate normalized eps) n R
        (fun r => c.convolve m (w r) calibrate n r (R r)) := by
  set c : Conv := ⟨s, b, d, pol, lmax, mmax, order, []⟩ with hcd
  refine ⟨c, fun r => (C34_explicit (h r).toReports d pol order (lmax := lmax) (mmax := mmax) (by omega) (by omega)).1 ⟨h1, h2, h3⟩, ?_⟩
  have hM : MachOK m ⟨lmax, mmax, order⟩ := hm.ok (by show lmax ≤ 100000; omega)
  obtain ⟨v, hv⟩ := hM.ovf
  have hk := kernelOK_of (h 0).loaded (L := lmax) (M := mmax) (by omega) (by omega) (by omega) (by omega) h1 h2 h3
  simp only [Int.toNat_natCast] at hk
  set e := c.env m (w 0) calibrate with hed
  have hcfg : e.cfg = ⟨lmax, mmax, order⟩ := by simp [hed, Conv.env, hcd, Conv.cfg]
  have hcc : c.cfg = ⟨lmax, mmax, order⟩ := by simp [hcd, Conv.cfg]
  have he : Tod.EnvOK e := ⟨hM.sort, hM.sched, hM.nan, hM.verb, fun hs i =>
      (ringOf_spec (c := c.cfg) hv (by rw [hcc]; exact hk) (by rw [hcc]; exact hM.orders 0) (by rw [hcc]; exact hM.fft) convAcc hs
        (Tod.ringTheta c.cfg i)).1,
    fun r mine => kernelRings_eq (c := c.cfg) hv (by rw [hcc]; exact hk) (by rw [hcc]; exact hM.orders r) (by rw [hcc]; exact hM.orders 0)
      (by rw [hcc]; exact hM.fft) mine convAcc⟩
  have hord : e.cfg.order ≤ e.cfg.nphi := by rw [hcfg]; exact ho
  have hprog : (fun r => c.convolve m (w r) calibrate n r (R r)) = Tod.job e n R := by
    funext r
    have hr : Ready (w r) c calibrate := ⟨by simp [hcd], by simp [hcd], by simp [hcd], Or.inl rfl, fun hc => by
      cases hx : normalized with
      | true => exact Or.inl (by rw [← hx]; exact hnorm r)
      | false => exact Or.inr (by show (w r).eps d ≠ none; rw [heps r]; exact hcal hc hx)⟩
    have := congrFun (convolve_eq_job hr m n R) r
    rw [this]
    show Tod.convolve _ n r (R r) = Tod.convolve _ n r (R r)
    rw [hed, env_eq (c := c) (h r) (h 0) (by show ((w r).beam b).normalized = ((w 0).beam b).normalized; rw [hnorm r, hnorm 0])
      (by show (w r).eps d = (w 0).eps d; rw [heps r, heps 0])]
  rw [hprog]
  obtain ⟨o1, o2, o3, o4⟩ := Tod.C59_outcome (R := R) he hord hn hnb
  refine ⟨o1, o2, o3, o4, fun out hret r hr => ?_⟩
  have hV := Tod.valid_real he hord hn R
  have hrows := Tod.returns_eq hV hret r hr
  refine ⟨by rw [hrows]; simp [Tod.resultRows], fun i hi => ?_⟩
  have hrs : RealField pol e.cfg.lmax ((w 0).sky s).exps := by rw [hcfg]; exact (h 0).realSky h1 (by omega) hS
  have hrb : RealField pol e.cfg.lmax ((w 0).beam b).exps := by rw [hcfg]; exact (h 0).realBeam h2 (by omega) hB
  have hleg := (o4.mp ⟨out, hret⟩).1 r hr (R r)[i] (List.getElem_mem hi)
  obtain ⟨x, W, hx, hW, hbound⟩ := C61_accuracy (e := e) hv (by rw [hcfg]; exact hk) hrs hrb (by rw [hcfg]; exact hM.orders 0)
    (by rw [hcfg]; exact hM.fft) (eps := convAcc) (fun _ _ => rfl) hord hleg.1 hleg.2.1 (R r)[i].phi (R r)[i].psi
  rw [hcfg] at hW hbound
  have hpair : ∀ m' ∈ Icc (-(mmax : ℤ)) mmax, ∀ m : ℤ, ∀ l ∈ Icc (max m.natAbs m'.natAbs) lmax,
      skyBeam pol ((w 0).sky s).exps ((w 0).beam b).exps l m m' = pairing pol S B l m m' := by
    intro m' hm' m l hl
    rw [mem_Icc] at hm' hl
    have := hl.1
    exact (h 0).skyBeam (le_trans (le_max_left _ _) hl.1) (le_trans (le_max_right _ _) hl.1) (by omega) (by omega) (by omega)
  have hconv : fullConv pol ((w 0).sky s).exps ((w 0).beam b).exps lmax mmax (R r)[i].theta (R r)[i].phi (R r)[i].psi =
      convSpec pol S B lmax mmax (R r)[i].theta (R r)[i].phi (R r)[i].psi := by
    unfold fullConv convSpec
    refine sum_congr rfl fun m' hm' => sum_congr rfl fun m _ => sum_congr rfl fun l hl => ?_
    unfold convTerm
    rw [hpair m' hm' m l hl]
  have hf : Tod.calibSpec e x = outFactor calibrate normalized eps * x := by
    rw [calibSpec_factor]
    have e1 : e.calibrate = calibrate := rfl
    have e2 : e.normalized = normalized := hnorm 0
    have e3 : e.eps = eps.getD 0 := by show ((w 0).eps d).getD 0 = _; rw [heps 0]
    unfold calibFactor outFactor
    rw [e1, e2, e3, mul_comm]
  refine ⟨Tod.calibSpec e x, W, ?_, hW, ?_⟩
  · rw [hrows]
    simp [Tod.resultRows, hi, Tod.val_of_spec hx, Tod.samples_length, Tod.total]
  · rw [hf, Complex.ofReal_mul, ← mul_sub, norm_mul, Complex.norm_real, Real.norm_eq_abs, ← hconv]
    refine mul_le_mul_of_nonneg_left (hbound.trans (le_of_eq ?_)) (abs_nonneg _)
    refine sum_congr rfl fun m' hm' => sum_congr rfl fun m _ => sum_congr rfl fun l hl => ?_
    rw [hpair m' hm' m l hl]
    rfl

/-! ## from the files -/

/-- The coefficient a table holds for `(l, m)`: the value in the last row with its index, zero if there is none. -/
noncomputable def tableCoef (tab : ℕ → Table ℂ) (h l m : ℕ) : ℂ := lastVal 0 (tab h).rows (code l m)

/-- The sky of a file, deconvolved with a Gaussian of the given width (arc minutes). -/
noncomputable def fileSky (tab : ℕ → Table ℂ) (fwhm : ℝ) (h l m : ℕ) : ℂ :=
  tableCoef tab h l m * ((if h = 2 then gaussFactor (-(arcmin2rad * fwhm)) l
    else gaussFactor (-(arcmin2rad * fwhm)) l * polFactor (-(arcmin2rad * fwhm)) : ℝ) : ℂ)

/-- The beam of a file; normalised if requested: divided by `2 √π b_00`. -/
noncomputable def fileBeam (norm : Bool) (tab : ℕ → Table ℂ) (h l m : ℕ) : ℂ :=
  tableCoef tab h l m * ((if norm then 1 / (2 * √Real.pi * (tableCoef tab 2 0 0).re) else 1 : ℝ) : ℂ)

/-- The beam after the optional call of `normalize()`. -/
noncomputable def prepared (norm : Bool) (b : Beam) : Res Beam := if norm then normalize b >>= fun x => ok x.2 else ok b

theorem holds_stores {t : Table ℂ} {L M : ℤ} {a : Alm ℂ} (h : Holds t L M a) (f : ℝ) :
    Stores (fun l m => lastVal 0 t.rows (code l m) * (f : ℂ)) L M (a.scale (mulR f)) := by
  obtain ⟨h1, h2, h3, h4⟩ := h
  exact ⟨⟨Alm.scale_wf h1 _, h2, h3⟩, fun l m hv => Alm.scale_get h1 (mulR f) (by rw [h2, h3]; exact hv) (h4 l m hv)⟩

theorem holds_stores_one {t : Table ℂ} {L M : ℤ} {a : Alm ℂ} (h : Holds t L M a) :
    Stores (fun l m => lastVal 0 t.rows (code l m) * ((1 : ℝ) : ℂ)) L M a := by
  obtain ⟨h1, h2, h3, h4⟩ := h
  exact ⟨⟨h1, h2, h3⟩, fun l m hv => by rw [h4 l m hv]; simp⟩

/-- A beam that was read, after the optional normalisation. -/
theorem prepared_ok (norm : Bool) {b : Beam} {pol : Bool} {tab : ℕ → Table ℂ} {L M : ℤ} {old : Comps}
    (hp : b.pol = some pol) (hn : b.normalized = false) (hM : 0 ≤ M) (hML : M ≤ L) (h : CompsHold pol tab L M old b.comps) :
    ∃ b', prepared norm b = ok b' ∧ b'.lmax = b.lmax ∧ b'.mmax = b.mmax ∧ b'.normalized = norm ∧
      ∀ i ∈ hdus pol, Stores (fileBeam norm tab i) L M (b'.comps.at i) := by
  obtain ⟨hT, hP, -⟩ := h
  cases norm with
  | false =>
    refine ⟨b, rfl, rfl, rfl, hn, fun i hi => ?_⟩
    cases pol with
    | false =>
      simp only [hdus, Bool.false_eq_true, if_false, List.mem_singleton] at hi
      subst hi
      exact holds_stores_one hT
    | true =>
      simp only [hdus, if_true, List.mem_cons, List.not_mem_nil, or_false] at hi
      obtain ⟨hG, hC⟩ := hP rfl
      rcases hi with rfl | rfl | rfl
      · exact holds_stores_one hT
      · exact holds_stores_one hG
      · exact holds_stores_one hC
  | true =>
    have h00 := hT.2.2.2 0 0 ⟨le_refl _, hM, le_refl _, by omega⟩
    have h00' : b.T.get 0 0 = ok (lastVal 0 (tab 2).rows (code 0 0)) := h00
    have hl : 0 ≤ b.T.lmax := by
      have : b.T.lmax = L := hT.2.1
      omega
    have e : normalize b = ok (1 / (2 * √Real.pi * (tableCoef tab 2 0 0).re), { b with
        T := b.T.scale (mulR (1 / (2 * √Real.pi * (tableCoef tab 2 0 0).re)))
        G := if pol then b.G.scale (mulR (1 / (2 * √Real.pi * (tableCoef tab 2 0 0).re))) else b.G
        C := if pol then b.C.scale (mulR (1 / (2 * √Real.pi * (tableCoef tab 2 0 0).re))) else b.C
        normalized := true }) := by
      unfold normalize
      rw [if_neg (by rw [hn]; decide), if_pos hl, h00', ok_bind, hp]
      rfl
    refine ⟨{ b with
        T := b.T.scale (mulR (1 / (2 * √Real.pi * (tableCoef tab 2 0 0).re)))
        G := if pol then b.G.scale (mulR (1 / (2 * √Real.pi * (tableCoef tab 2 0 0).re))) else b.G
        C := if pol then b.C.scale (mulR (1 / (2 * √Real.pi * (tableCoef tab 2 0 0).re))) else b.C
        normalized := true }, by rw [prepared, if_pos rfl, e]; rfl, rfl, rfl, rfl, fun i hi => ?_⟩
    cases pol with
    | false =>
      simp only [hdus, Bool.false_eq_true, if_false, List.mem_singleton] at hi
      subst hi
      exact holds_stores hT _
    | true =>
      simp only [hdus, if_true, List.mem_cons, List.not_mem_nil, or_false] at hi
      obtain ⟨hG, hC⟩ := hP rfl
      rcases hi with rfl | rfl | rfl
      · exact holds_stores hT _
      · exact holds_stores hG _
      · exact holds_stores hC _

theorem sky_stores {pol : Bool} {tab : ℕ → Table ℂ} {L : ℤ} {fwhm : ℝ} {old c : Comps}
    (h : CompsHoldScaled pol tab L L (gaussFactor (-(arcmin2rad * fwhm)))
      (fun l => gaussFactor (-(arcmin2rad * fwhm)) l * polFactor (-(arcmin2rad * fwhm))) old c) :
    ∀ i ∈ hdus pol, Stores (fileSky tab fwhm i) L L (c.at i) := by
  obtain ⟨hT, hP, -⟩ := h
  intro i hi
  cases pol with
  | false =>
    simp only [hdus, Bool.false_eq_true, if_false, List.mem_singleton] at hi
    subst hi
    exact ⟨⟨hT.1, hT.2.1, hT.2.2.1⟩, fun l m hv => hT.2.2.2 l m hv⟩
  | true =>
    simp only [hdus, if_true, List.mem_cons, List.not_mem_nil, or_false] at hi
    obtain ⟨hG, hC⟩ := hP rfl
    rcases hi with rfl | rfl | rfl
    · exact ⟨⟨hT.1, hT.2.1, hT.2.2.1⟩, fun l m hv => hT.2.2.2 l m hv⟩
    · exact ⟨⟨hG.1, hG.2.1, hG.2.2.1⟩, fun l m hv => hG.2.2.2 l m hv⟩
    · exact ⟨⟨hC.1, hC.2.1, hC.2.2.1⟩, fun l m hv => hC.2.2.2 l m hv⟩

/-- **C63** from the files: on `n` ranks `sky.read`, `beam.read`, optionally `beam.normalize()`, the constructor and `convolve` are
called.  Files as seen by the other ranks, buffer sizes, memory contents and earlier contents of the objects are arbitrary; the files of
rank 0 hold tables whose coefficients of order 0 are real, `b_00 ≠ 0` if the beam is normalised (the code divides by it; the quotient of
the model would be 0), and the limits fit.  Then both reads return on all ranks without an error,
the constructor succeeds, and `convolve` delivers the total convolution of the coefficients in the files, with the sky deconvolved and
the beam normalised as requested. -/
theorem C63_files {n : ℕ} (hn : 1 ≤ n) {m : Mach} (hnb : 0 < m.nbin) (pol : Bool) (fs : ℕ → Files) (chunk : ℕ → ℕ) (hc : 0 < chunk 0)
    (junk : ℕ → ℕ → ℂ) (sky0 : ℕ → Sky) (beam0 : ℕ → Beam) (hfresh : ∀ r, (beam0 r).normalized = false)
    {skyFile beamFile : String} {tabS tabB : ℕ → Table ℂ} {lfS mfS lfB mfB : ℤ}
    (hszS : fileSize pol (fs 0) skyFile = ok (lfS, mfS)) (hszB : fileSize pol (fs 0) beamFile = ok (lfB, mfB))
    (hS0 : 0 ≤ lfS) (hB0 : 0 ≤ lfB) (hBm : 0 ≤ mfB) {sl bl bm : ℤ} (hsl : sl ≤ lfS) (hbl : bl ≤ lfB) (hbm : bm ≤ mfB)
    (hreq : bm ≤ 0 ∨ bm = bl) {Ls Lb Mb : ℤ} (eLs : Ls = if 0 < sl then sl else lfS) (hLs : Ls ≤ mfS)
    (eLb : Lb = if 0 < bl then bl else lfB) (eMb : Mb = if 0 < bm then bm else min Lb mfB)
    (hfS : GoodFile pol (fs 0) skyFile Ls Ls tabS) (hfB : GoodFile pol (fs 0) beamFile Lb Mb tabB)
    (norm : Bool) (_hb : norm = true → (tableCoef tabB 2 0 0).re ≠ 0) (fwhm : ℝ) {calibrate : Bool} {eps : Option ℝ} (hcal : calibrate = true → norm = false → eps ≠ none)
    {lmax mmax order : ℕ} (h0 : 0 < lmax) (hL : lmax < 46341) (hml : mmax ≤ lmax) (ho : order ≤ 2 * lmax + 1)
    (h1 : (lmax : ℤ) ≤ Ls) (h2 : (lmax : ℤ) ≤ Lb) (h3 : (mmax : ℤ) ≤ Mb)
    (hrS : ∀ h ∈ hdus pol, ∀ l ≤ lmax, (tableCoef tabS h l 0).im = 0)
    (hrB : ∀ h ∈ hdus pol, ∀ l ≤ lmax, (tableCoef tabB h l 0).im = 0)
    (hm : MachLib m ⟨lmax, mmax, order⟩) (R : ℕ → List (Tod.Row ℝ)) :
    ∃ (sky' : ℕ → Sky) (beam' beam'' : ℕ → Beam),
      Spmd.Returns n (fun r => skyRead (fs r) (chunk r) (junk r) r sl pol skyFile fwhm (sky0 r)) (fun r => (sky' r, none)) ∧
      Spmd.Returns n (fun r => beamRead (fs r) (chunk r) (junk r) r bl bm pol beamFile (beam0 r)) (fun r => (beam' r, none)) ∧
      (∀ r, prepared norm (beam' r) = ok (beam'' r)) ∧
      ∀ (s b d : ℕ) (w : ℕ → World), (∀ r, (w r).sky s = sky' r) → (∀ r, (w r).beam b = beam'' r) → (∀ r, (w r).eps d = eps) →
        ∃ c : Conv, (∀ r, ctor (w r) s b d pol lmax mmax order = ok c) ∧
          Delivers m.nbin pol (fileSky tabS fwhm) (fileBeam norm tabB) lmax mmax order (outFactor calibrate norm eps) n R
            (fun r => c.convolve m (w r) calibrate n r (R r)) := by
  have hLM : beamLimits bl bm lfB mfB = (Lb, Mb) := by
    unfold beamLimits
    simp only [gt_iff_lt]
    by_cases h : 0 < bm
    · rw [if_pos h] at eMb ⊢
      rw [← eLb]
      congr 1; omega
    · rw [if_neg h] at eMb ⊢
      rw [← eLb, ← eMb]
  have hM0 : 0 ≤ Mb := by
    rw [eMb, eLb]
    split
    · omega
    · split <;> omega
  have hML : Mb ≤ Lb := by have := beamLimits_le (bm := bm) (mf := mfB) hbl; rw [hLM] at this; exact this
  obtain ⟨sky', s1, s2⟩ := C30_sky_read hn fs chunk hc junk sl pol skyFile fwhm sky0 lfS mfS tabS hszS hsl hS0
    (by rw [← eLs]; exact hLs) (by rw [← eLs]; exact hfS)
  rw [← eLs] at s2
  obtain ⟨beam', b1, b2⟩ := beam_read_ok hn fs chunk hc junk bl bm pol beamFile beam0 lfB mfB Lb Mb tabB hszB hbl hbm hLM hM0 hfB
  choose beam'' p1 p2 p3 p4 p5 using fun r => prepared_ok norm (b2 r).2.2.1 (by rw [(b2 r).2.2.2.1]; exact hfresh r) hM0 hML (b2 r).2.2.2.2
  refine ⟨sky', beam', beam'', s1, b1, p1, fun s b d w hws hwb hwd => ?_⟩
  refine C63_objects hn (S := fileSky tabS fwhm) (B := fileBeam norm tabB) (ls := Ls) (lb := Lb) (mb := Mb) (normalized := norm)
    (fun r => ?_) (fun r => by rw [hwb r]; exact p4 r) hwd hcal h0 hL hml ho h1 h2 h3 ?_ ?_ hm hnb R
  · refine ⟨⟨by rw [hws r]; exact (s2 r).1, by rw [hwb r, p2 r]; exact (b2 r).1, by rw [hwb r, p3 r]; exact (b2 r).2.1⟩, ?_, ?_⟩
    · rw [hws r]; exact sky_stores (s2 r).2.2
    · rw [hwb r]; exact p5 r
  · intro h hh l hl
    unfold fileSky
    rw [Complex.im_mul_ofReal, hrS h hh l hl, zero_mul]
  · intro h hh l hl
    unfold fileBeam
    rw [Complex.im_mul_ofReal, hrB h hh l hl, zero_mul]

/-! ## non-vacuity -/

/-- Three ranks, of which only rank 0 sees the file, read sky and beam with `lmax = 2` (the sky deconvolved with 30 arc minutes),
normalise the beam, build a convolver with `lmax = beammmax = 2` on a machine that uses the plan of the library, and convolve:
all ranks return, and every value obeys the bound. -/
example : ∃ (m : Mach) (w : ℕ → World) (c : Conv) (out : ℕ → List (Tod.Row ℝ)),
    (∀ r, ctor (w r) 0 0 0 false 2 2 1 = ok c) ∧ Spmd.Returns 3 (fun r => c.convolve m (w r) true 3 r (Tod.demoRows r)) out ∧
    Delivers 4 false (fileSky (fun _ => ⟨some 2, some 2, [(code 1 1, 5), (code 0 0, 3), (code 2 0, 7)]⟩) 30)
      (fileBeam true (fun _ => ⟨some 2, some 2, [(code 1 1, 5), (code 0 0, 3), (code 2 0, 7)]⟩)) 2 2 1 1 3 Tod.demoRows
      (fun r => c.convolve m (w r) true 3 r (Tod.demoRows r)) := by
  obtain ⟨p, hp, -⟩ := Fft.C41_library_transform (fun _ _ => false) (lmax := 2) (by norm_num) 0
  have hm : MachLib ⟨4, ok 0, Tod.demoEnv.srt, List.reverse, ok 0, fun _ => wOrders, fun _ => p.backward, fun _ => 1⟩ ⟨2, 2, 1⟩ := by
    refine ⟨Tod.demoEnv_ok.sort, Tod.demoEnv_ok.sched, ⟨0, rfl⟩, Tod.SameVerb.const 1, ⟨0, rfl⟩, fun _ => ?_, _, 0, p, [], p, hp, by simp, rfl, rfl⟩
    exact wOrders_ok
  have key := C63_files (n := 3) (by norm_num) (m := ⟨4, ok 0, Tod.demoEnv.srt, List.reverse, ok 0, fun _ => wOrders, fun _ => p.backward, fun _ => 1⟩)
    (by norm_num) false (fun r => if r = 0 then fileEx else fun _ => none) (fun _ => 4) (by decide) (fun _ _ => 0)
    (fun _ => Sky.fresh 0) (fun _ => Beam.fresh 0) (fun _ => rfl) (skyFile := "b") (beamFile := "b")
    (tabS := fun _ => ⟨some 2, some 2, [(code 1 1, 5), (code 0 0, 3), (code 2 0, 7)]⟩)
    (tabB := fun _ => ⟨some 2, some 2, [(code 1 1, 5), (code 0 0, 3), (code 2 0, 7)]⟩) fileEx_size fileEx_size (by norm_num) (by norm_num)
    (by norm_num) (sl := 2) (bl := 2) (bm := -1) (by norm_num) (by norm_num) (by norm_num) (Or.inl (by norm_num)) (Ls := 2) (Lb := 2) (Mb := 2)
    (by norm_num) (by norm_num) (by norm_num) (by norm_num) (fileEx_good 2 2) (fileEx_good 2 2) true
    (fun _ => by simp [tableCoef, lastVal, code]) 30
    (calibrate := true) (eps := none) (fun _ h => by cases h) (lmax := 2) (mmax := 2) (order := 1) (by norm_num) (by norm_num) (by norm_num)
    (by norm_num) (by norm_num) (by norm_num) (by norm_num)
    (fun h _ l hl => by interval_cases l <;> simp [tableCoef, lastVal, code])
    (fun h _ l hl => by interval_cases l <;> simp [tableCoef, lastVal, code]) hm Tod.demoRows
  obtain ⟨sky', beam', beam'', -, -, -, h⟩ := key
  obtain ⟨c, h1, h2⟩ := h 0 0 0 (fun r => ⟨fun _ => sky' r, fun _ => beam'' r, fun _ => none⟩) (fun _ => rfl) (fun _ => rfl) (fun _ => rfl)
  have hf : outFactor true true none = 1 := by simp [outFactor]
  rw [hf] at h2
  obtain ⟨out, hout⟩ := h2.returns.mpr Tod.demo_outcome
  exact ⟨_, _, c, out, h1, hout, h2⟩

end Verif.Obj
