import Verif.Api.Objects
import Verif.Num.GridPoint

/-!
# The convolver object: construction, replacement of its inputs, repeated use

`convolver::convolver` (src/conviqt_math.cpp:112-195), `set_sky`, `set_beam`, `set_detector` (:198-217),
`weight_ncm_initialize` (:220-241) and the way `convolve` (:1479-1672) uses the members.  Profiling counters are not
modelled.  `get_lmax()`/`get_mmax()` return the `long` member as `int`; limits are taken to fit in an `int`.
-/

namespace Verif.Obj
open Verif Res Verif.Harm Verif.Num

/-- Objects of one rank, by address: sky and beam objects and the `epsilon_` member of detectors (`none`: never set,
src/conviqt.hpp:38-119). -/
structure World where
  sky : ℕ → Sky
  beam : ℕ → Beam
  eps : ℕ → Option ℝ

/-- Members of `class convolver` that influence results (src/conviqt.hpp:134-271); the grid parameters are functions of
`lmax`, `mmax`, `order` (`Tod.Cfg`) and are never assigned after construction. -/
structure Conv where
  s : ℕ
  b : ℕ
  d : ℕ
  pol : Bool
  lmax : ℤ
  mmax : ℤ
  order : ℤ
  wgt : List ℝ

/-- Reading a member that may be indeterminate. -/
def known {α : Type} : Option α → Res α
  | some x => ok x
  | none => ub "indeterminate value"

/-- Choice of `lmax`, src/conviqt_math.cpp:121-127. -/
def pickLmax (lmax lsky lbeam : ℤ) : Res ℤ :=
  if lmax < 0 then ok (max lbeam lsky)
  else if lsky < lmax ∨ lbeam < lmax then throw "Convolver lmax exceeds input expansion order."
  else ok lmax

/-- Choice of `beammmax`, src/conviqt_math.cpp:129-134. -/
def pickMmax (mmax mbeam : ℤ) : Res ℤ :=
  if mmax < 0 then ok mbeam
  else if mbeam < mmax then throw "Convolver mmax exceeds input expansion order."
  else ok mmax

/-- `convolver::convolver`, src/conviqt_math.cpp:112-195. -/
def ctor (w : World) (s b d : ℕ) (pol : Bool) (lmax mmax order : ℤ) : Res Conv := do
  let lsky ← known (w.sky s).lmax
  let lbeam ← known (w.beam b).lmax
  let L ← pickLmax lmax lsky lbeam
  let mbeam ← known (w.beam b).mmax
  let M ← pickMmax mmax mbeam
  ok ⟨s, b, d, pol, L, M, order, []⟩

/-- `weight_ncm_initialize`, src/conviqt_math.cpp:220-241; `N` is `npoints`. -/
noncomputable def weightInit (wgt : List ℝ) (N : ℕ) : Res (List ℝ) :=
  if wgt.length = 0 then ok (Tod.baseWgt N)
  else if wgt.length ≠ N then throw "base_wgt changed dimensions"
  else ok wgt

/-- What the machine contributes to a run of `convolve`: number of bins, schedules, `std::sort`, the FFT library, the
result of overflowing/unrepresentable conversions. -/
structure Mach where
  nbin : ℕ
  nan : Res ℤ
  srt : List (ℝ × ℕ) → List (ℝ × ℕ)
  sched : List ℕ → List ℕ
  ovf : Res ℤ
  /-- schedule of the parallel loops of the kernel on every rank -/
  orders : ℕ → Orders
  fft : ℕ → List ℂ → List ℂ
  /-- `verbosity` of the convolver of every rank (src/conviqt_math.cpp:112-116) -/
  verb : ℕ → ℤ

/-- Expansions of an object. -/
def Sky.exps (s : Sky) : Exps := ⟨s.T, s.G, s.C⟩
def Beam.exps (b : Beam) : Exps := ⟨b.T, b.G, b.C⟩

/-- Grid configuration of the members (for non-negative limits). -/
def Conv.cfg (c : Conv) : Tod.Cfg := ⟨c.lmax.toNat, c.mmax.toNat, c.order.toNat⟩

/-- `conv_acc`, src/conviqt.hpp:28 -/
noncomputable def convAcc : ℝ := 1 / 10 ^ 30

/-- Everything `convolve` reads through the members `s`, `b`, `d` and the grid. -/
noncomputable def Conv.env (m : Mach) (w : World) (c : Conv) (calibrate : Bool) : Tod.Env ℝ where
  cfg := c.cfg
  nbin := m.nbin
  kern := fun r => kernelRings m.ovf (m.orders r) (m.fft c.cfg.nphi) c.pol (w.sky c.s).exps (w.beam c.b).exps c.cfg convAcc
  ring := fun south i => ringOf m.ovf (m.orders 0) (m.fft c.cfg.nphi) c.pol (w.sky c.s).exps (w.beam c.b).exps c.cfg convAcc
    south (Tod.ringTheta c.cfg i)
  nan := m.nan
  srt := m.srt
  sched := m.sched
  calibrate := calibrate
  normalized := (w.beam c.b).normalized
  eps := (w.eps c.d).getD 0
  verb := m.verb

/-- `convolver::convolve` as a method, src/conviqt_math.cpp:1479-1672.  Negative members are outside the model of the grid
(`ub`); `d->get_epsilon()` is only read when samples are calibrated (:1654-1655) and must have been set; the interpolation
uses the cached weights as `weight_ncm_initialize` leaves them, and `Tod.convolve` is the program for the weights
`Tod.baseWgt` — a cache holding anything else is `ub`. -/
noncomputable def Conv.convolve (m : Mach) (w : World) (c : Conv) (calibrate : Bool) (cores me : ℕ) (rows : List (Tod.Row ℝ)) :
    Spmd.Prog ℝ (List (Tod.Row ℝ)) :=
  if c.lmax < 0 ∨ c.mmax < 0 ∨ c.order < 0 then Spmd.Prog.lift (ub "negative limits")
  else if rows ≠ [] ∧ calibrate = true ∧ (w.beam c.b).normalized = false ∧ w.eps c.d = none then
    Spmd.Prog.lift (ub "indeterminate epsilon")
  else match weightInit c.wgt c.cfg.npoints with
    | .ok wgt => open Classical in
      if wgt = Tod.baseWgt c.cfg.npoints then Tod.convolve (c.env m w calibrate) cores me rows
      else Spmd.Prog.lift (ub "stale weights")
    | .throw e => Spmd.Prog.lift (throw e)
    | .ub e => Spmd.Prog.lift (ub e)

/-- Calls between two results.  `edit` is anything the user does to sky, beam and detector objects (read, normalise,
smooth, `set_epsilon`, new objects …); `run` is a call of `convolve`, whatever its outcome. -/
inductive Op where
  | setSky (s : ℕ)
  | setBeam (b : ℕ)
  | setDet (d : ℕ)
  | edit (w : World)
  | run

/-- Effect of a call on the convolver and the objects.  `convolve` may reach `weight_ncm_initialize` or not (a rank without
samples, an exception before the interpolation). -/
inductive Step : World × Conv → Op → World × Conv → Prop where
  /-- `set_sky`, src/conviqt_math.cpp:198-203 -/
  | setSky (w c s) : Step (w, c) (.setSky s) (w, { c with s := s })
  /-- `set_beam`, src/conviqt_math.cpp:205-210 -/
  | setBeam (w c b) : Step (w, c) (.setBeam b) (w, { c with b := b })
  /-- `set_detector`, src/conviqt_math.cpp:212-217 -/
  | setDet (w c d) : Step (w, c) (.setDet d) (w, { c with d := d })
  | edit (w c w') : Step (w, c) (.edit w') (w', c)
  | runNone (w c) : Step (w, c) .run (w, c)
  | runInit (w c wgt) (h : weightInit c.wgt (c.order + 1).toNat = ok wgt) : Step (w, c) .run (w, { c with wgt := wgt })

/-- Histories. -/
inductive Hist : World × Conv → List Op → World × Conv → Prop where
  | nil (x) : Hist x [] x
  | cons {x y z op ops} (h : Step x op y) (t : Hist y ops z) : Hist x (op :: ops) z

end Verif.Obj
