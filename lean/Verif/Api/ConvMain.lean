import Verif.Api.ConvProps
import Verif.Tod.Witness

/-! # From constructed objects to the convolved samples

Joins the object layer (`Conv.ctor`, `Conv.convolve`) with the distributed program and the numerical kernel. -/

namespace Verif.Obj
open Verif Res Verif.Harm Verif.Num

/-- The machine does what C++, OpenMP and the FFT library promise: `std::sort` sorts, every loop iteration runs once, the
transform is the backward DFT; overflowing conversions return some value. -/
structure MachOK (m : Mach) (c : Tod.Cfg) : Prop where
  sort : ∀ l : List (ℝ × ℕ), (m.srt l).Perm l ∧ (m.srt l).Pairwise (fun p q => p.1 ≤ q.1)
  sched : ∀ l, (m.sched l).Perm l
  nan : ∃ v, m.nan = ok v
  verb : Tod.SameVerb m.verb
  ovf : ∃ v, m.ovf = ok v
  orders : ∀ r, (m.orders r).OK c.lmax c.npsi
  fft : IsBackward (m.fft c.nphi) c.nphi

/-- The whole library path: objects as after successful reads on every rank, explicit limits `0 < lmax < 46341`,
`0 ≤ beammmax ≤ lmax`, an `epsilon` that was set, samples on every rank spread over enough latitudes (`Balanced`, C43).  Then
the constructor succeeds exactly when the expansions reach the limits, and `convolve`, after any history of calls on the
convolver that left it on these objects, returns on all ranks, each row keeping its pointing and receiving a value that
depends only on it. -/
theorem C44_convolve_partial {w : World} {s b : ℕ} {pol : Bool} {ls lb mb : ℤ} (h : Loaded w s b pol ls lb mb) {d : ℕ} {eps : ℝ}
    (heps : w.eps d = some eps) {lmax mmax order : ℤ} (h0 : 0 < lmax) (hL : lmax < 46341) (hM : 0 ≤ mmax) (hml : mmax ≤ lmax)
    (ho0 : 0 ≤ order) (ho1 : order ≤ 2 * lmax + 1) (h1 : lmax ≤ ls) (h2 : lmax ≤ lb) (h3 : mmax ≤ mb)
    {n : ℕ} (hn : 1 ≤ n) {w0 : ℕ → World} {s0 b0 d0 : ℕ → ℕ} {c0 c : ℕ → Conv} {ops : ℕ → List Op}
    (hc0 : ∀ r, ctor (w0 r) (s0 r) (b0 r) (d0 r) pol lmax mmax order = ok (c0 r))
    (hh : ∀ r, Hist (w0 r, c0 r) (ops r) (w, c r))
    (hcur : ∀ r, curSky (s0 r) (ops r) = s ∧ curBeam (b0 r) (ops r) = b ∧ curDet (d0 r) (ops r) = d)
    {m : Mach} (hm : MachOK m ⟨lmax.toNat, mmax.toNat, order.toNat⟩) (calibrate : Bool) {R : ℕ → List (Tod.Row ℝ)}
    (hB : Tod.Balanced m.nbin n R) (hne : ∀ r < n, R r ≠ []) :
    ∃ f : Conv, ctor w s b d pol lmax mmax order = ok f ∧
    ∃ out, Spmd.Returns n (fun r => (c r).convolve m w calibrate n r (R r)) out ∧
      ∀ r < n, ∀ i (hi : i < (R r).length), ∃ x,
        Tod.sampleSpec (f.env m w calibrate) (R r)[i].phi (R r)[i].theta (R r)[i].psi = ok x ∧
        (out r)[i]? = some ⟨(R r)[i].phi, (R r)[i].theta, (R r)[i].psi,
          (if calibrate && !(w.beam b).normalized then x * (2 / (1 + eps)) else x), ((Tod.samples r R).length + i : ℕ)⟩ := by
  have hf := (C34_explicit h.toReports d pol order (lmax := lmax) (mmax := mmax) (by omega) hM).1 ⟨h1, h2, h3⟩
  set f : Conv := ⟨s, b, d, pol, lmax, mmax, order, []⟩ with hfd
  refine ⟨f, hf, ?_⟩
  obtain ⟨v, hv⟩ := hm.ovf
  have hk := kernelOK_of h h0 hL hM hml h1 h2 h3
  have he : Tod.EnvOK (f.env m w calibrate) := ⟨hm.sort, hm.sched, hm.nan, hm.verb, fun hs i =>
    (ringOf_spec (c := f.cfg) hv hk (hm.orders 0) hm.fft convAcc hs (Tod.ringTheta f.cfg i)).1,
    fun r mine => kernelRings_eq (c := f.cfg) hv hk (hm.orders r) (hm.orders 0) hm.fft mine convAcc⟩
  have hord : (f.env m w calibrate).cfg.order ≤ (f.env m w calibrate).cfg.nphi := by
    show order.toNat ≤ 2 * lmax.toNat + 1
    omega
  obtain ⟨out, o1, o2⟩ := Tod.C01_convolve_real he hord hn (R := R) hB hne
  have hprog : (fun r => (c r).convolve m w calibrate n r (R r)) = Tod.job (f.env m w calibrate) n R := by
    funext r
    obtain ⟨k1, k2, k3⟩ := hcur r
    rw [C44_history_partial (by omega) hM ho0 (hc0 r) (hh r) (c' := f) (by rw [k1, k2, k3]; exact hf)]
    unfold Conv.convolve
    rw [if_neg (by simp only [hfd]; omega), if_neg (by rintro ⟨-, -, -, hx⟩; rw [show f.d = d from rfl, heps] at hx; cases hx),
      weightInit_of (Or.inl rfl)]
    dsimp only
    rw [if_pos rfl]
    rfl
  rw [hprog]
  refine ⟨out, o1, fun r hr i hi => ?_⟩
  obtain ⟨x, x1, x2⟩ := o2 r hr i hi
  refine ⟨x, x1, ?_⟩
  rw [x2]
  congr 2
  unfold Tod.calibSpec
  simp only [Tod.RealArith.mul_def, Tod.RealArith.div_def, Tod.RealArith.ofInt_def, Tod.RealArith.add_def]
  have e1 : (f.env m w calibrate).eps = eps := by show (w.eps d).getD 0 = eps; rw [heps]; rfl
  rw [e1]
  push_cast
  rfl

/-! ## witness -/

/-- A machine: merge sort, backwards schedules, the DFT by its definition. -/
noncomputable def wMach : Mach := ⟨4, ok 0, Tod.demoEnv.srt, List.reverse, ok 0, fun _ => wOrders, dft, fun _ => 1⟩

theorem wMach_ok : MachOK wMach ⟨2, 2, 1⟩ :=
  ⟨Tod.demoEnv_ok.sort, Tod.demoEnv_ok.sched, ⟨0, rfl⟩, Tod.SameVerb.const 1, ⟨0, rfl⟩, fun _ => wOrders_ok, dft_backward 5⟩

/-- The objects with an `epsilon` for detector 1. -/
noncomputable def wWorld2 : World := { wWorld with eps := fun i => if i = 1 then some (1 / 2) else none }

/-- Three ranks; a convolver is built with detector 0, used, and given detector 1 whose epsilon is set afterwards. -/
example : ∃ c : Conv, Hist (wWorld, ⟨0, 0, 0, true, 2, 2, 1, []⟩) [.run, .setDet 1, .edit wWorld2] (wWorld2, c) ∧
    ∃ out, Spmd.Returns 3 (fun r => c.convolve wMach wWorld2 true 3 r (Tod.demoRows r)) out := by
  have h0 : ctor wWorld 0 0 0 true 2 2 1 = ok ⟨0, 0, 0, true, 2, 2, 1, []⟩ :=
    (C34_explicit wLoaded.toReports 0 true 1 (by norm_num) (by norm_num)).1 (by norm_num)
  have hl : Loaded wWorld2 0 0 true 2 2 2 :=
    ⟨⟨rfl, rfl, rfl⟩, wLoaded.sT, wLoaded.bT, wLoaded.sP, wLoaded.bP⟩
  have hh : Hist (wWorld, ⟨0, 0, 0, true, 2, 2, 1, []⟩) [.run, .setDet 1, .edit wWorld2]
      (wWorld2, ⟨0, 0, 1, true, 2, 2, 1, Tod.baseWgt 2⟩) :=
    Hist.cons (Step.runInit _ _ (Tod.baseWgt 2) (by unfold weightInit; rfl))
      (Hist.cons (Step.setDet _ _ 1) (Hist.cons (Step.edit _ _ wWorld2) (Hist.nil _)))
  obtain ⟨f, -, out, h1, -⟩ := C44_convolve_partial hl (d := 1) (eps := 1 / 2) (by simp [wWorld2]) (lmax := 2) (mmax := 2)
    (order := 1) (by norm_num) (by norm_num) (by norm_num) (by norm_num) (by norm_num) (by norm_num) (by norm_num) (by norm_num)
    (by norm_num) (n := 3) (by norm_num) (w0 := fun _ => wWorld) (s0 := fun _ => 0) (b0 := fun _ => 0) (d0 := fun _ => 0)
    (fun _ => h0) (fun _ => hh) (fun _ => ⟨rfl, rfl, rfl⟩) wMach_ok true (R := Tod.demoRows) Tod.demo_balanced
    (fun r _ => by simp [Tod.demoRows])
  exact ⟨_, hh, out, h1⟩

end Verif.Obj
