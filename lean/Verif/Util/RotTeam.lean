import Verif.Par.RisRegion
import Verif.Util.HalfPiOmp
import Verif.Util.RotThree

/-!
# `rotate_alm` with real threads (C78): the model

The functions of `Util/Risbo`, `Util/RotAlm` and `Util/RotThree` with every parallel region executed by threads whose single loads and stores are
interleaved (`Par/Model`).  Exact arithmetic.
-/

namespace Verif.RotPar

open Verif Res Verif.Risbo Verif.Num Verif.Harm Verif.PowSpec Verif.Share
open Verif.HalfPi (ND)
open Verif.Par (Prog)

/-- All outcomes of one parallel region of `N` threads, started in shared memory `M`; `out` reads off the result.  A data race, undefined behaviour
or an exception in a thread, or a run without end, is recorded as undefined behaviour. -/
def outcomes {L α : Type} {N : ℕ} (P : Par.Phase N L ℝ Unit) (M : L → ℝ) (out : (L → ℝ) → α) : ND α := fun r =>
  (∃ m' s', Par.Ends [P] M (fun _ => ()) m' s' ∧ r = ok (out m')) ∨
  (∃ c, Par.Reach [P] M (fun _ => ()) c ∧ (Par.Race c ∨ Par.Broken c) ∧ r = ub "race or failure in a thread") ∨
  ((∀ k, ∃ c, Par.StepsN k (Par.start P M (fun _ => ())) c) ∧ r = ub "no end")

/-- `for (i = 0; i < n; ++i)` -/
def ndForN {α : Type} : ℕ → (ℕ → α → ND α) → α → ND α
  | 0, _, a => ND.det (ok a)
  | n + 1, f, a => ndForN n f a >>= f n

/-! ## The Risbo recursion -/

/-- The shared memory when the tables are `d` and `dd`. -/
def mem (d dd : A2) : RisPar.Cell → ℝ := fun l => if l.1 then dd.v l.2.1 l.2.2 else d.v l.2.1 l.2.2

/-- The table `dd` (of `n1 × n2` entries) in shared memory `m`. -/
def table (n1 n2 : ℕ) (m : RisPar.Cell → ℝ) : A2 := ⟨n1, n2, fun k i => m (true, k, i)⟩

/-- What the threads of half step `j` only read. -/
noncomputable def risInputs (q p : ℝ) (sqt : List ℝ) (j : ℕ) (d dd : A2) : RisPar.Inputs ℝ := ⟨d.n1, d.n2, dd.n1, dd.n2, p, q, 1 / (j : ℝ), sqt⟩

/-- The parallel region of half step `j`, wigner.cc:245-259: any number of threads, any dealing of the rows to them. -/
noncomputable def risRegion (q p : ℝ) (sqt : List ℝ) (n j : ℕ) (d dd : A2) : ND A2 := fun r =>
  ∃ (N : ℕ) (its : Fin N → List ℕ), Par.Dealt its (List.range' 1 n) ∧
    outcomes ((RisPar.rowLoop (risInputs q p sqt j d dd) n j).phase its) (mem d dd) (table dd.n1 dd.n2) r

/-- One half step, wigner.cc:240-260; the result is `(dd, d)` after the swap. -/
noncomputable def halfP (q p : ℝ) (sqt : List ℝ) (n j : ℕ) (d dd : A2) : ND (A2 × A2) := do
  let dd ← ND.det (ompRow0 q p sqt j d dd)
  let dd ← risRegion q p sqt n j d dd
  ND.det (ok (dd, d))

/-- The step for `n ≥ 2`, wigner.cc:231-261. -/
noncomputable def stepP (q p : ℝ) (sqt : List ℝ) (n : ℕ) (d dd : A2) : ND (A2 × A2) := do
  let d ← ND.det (pad n d)
  let r ← halfP q p sqt n (2 * n - 1) d dd
  halfP q p sqt n (2 * n) r.1 r.2

/-- The two tables after the call that makes `n` the current degree, wigner.cc:222-262. -/
noncomputable def tablesP (r : Rec) (n : ℤ) : ND (A2 × A2) :=
  if n = 0 then ND.det (r.d.put 0 0 1 >>= fun d => ok (d, r.dd))
  else if n = 1 then ND.det (first r.q r.p r.sqt r.d >>= fun d => ok (d, r.dd))
  else stepP r.q r.p r.sqt n.toNat r.d r.dd

/-- `wigner_d_risbo_openmp::recurse`, wigner.cc:219-264: all outcomes. -/
noncomputable def recurseP (r : Rec) : ND Rec := do
  let e ← tablesP r (r.n + 1)
  ND.det (ok { r with d := e.1, dd := e.2, n := r.n + 1 })

/-! ## The rotation -/

/-- A complex number as two doubles. -/
def pair (z : ℂ) : ℝ × ℝ := (z.re, z.im)

/-- What the threads only read for degree `l`; `alms c` is component `c`. -/
noncomputable def rotInputs (alms : ℕ → Alm ℂ) (l : ℕ) (exppsi : List ℂ) (d : A2) (size : ℕ) : Inputs ℝ where
  a c mm := (alms c).get l mm >>= fun z => ok (pair z)
  x mm := rd exppsi mm >>= fun z => ok (pair z)
  d := d.get
  l := l
  size := size

/-- The shared memory when the tables are `tmps c`. -/
def memT (tmps : ℕ → List ℂ) : RCell → ℝ := fun e =>
  if e.2.2 then ((tmps e.1).getD e.2.1 0).im else ((tmps e.1).getD e.2.1 0).re

/-- The table of component `c` in shared memory `m`. -/
def tableT (size : ℕ) (m : RCell → ℝ) (c : ℕ) : List ℂ := (List.range size).map (fun i => ⟨m (c, i, false), m (c, i, true)⟩)

/-- The parallel region for degree `l` and the components `cs`, alm_powspec_tools.cc:323-342, 386-408, for any number of threads. -/
noncomputable def rotRegion (alms : ℕ → Alm ℂ) (cs : List ℕ) (l : ℕ) (exppsi : List ℂ) (d : A2) (size : ℕ) (tmps : ℕ → List ℂ) : ND (ℕ → List ℂ) :=
  fun r => ∃ N, 0 < N ∧ outcomes ((rotLoop (rotInputs alms l exppsi d size) cs N).phase (teamOf N)) (memT tmps) (tableT size) r

/-- The first loop, alm_powspec_tools.cc:318-319. -/
noncomputable def init1 (alm : Alm ℂ) (l : ℕ) (d : A2) (m : ℕ) (tmp : List ℂ) : Res (List ℂ) := do
  let a ← alm.get l 0
  let x ← d.get l ((l : ℤ) + m)
  wr tmp m (a * x)

/-- The last loop, alm_powspec_tools.cc:344-345. -/
noncomputable def store1 (l : ℕ) (tmp expphi : List ℂ) (m : ℕ) (alm : Alm ℂ) : Res (Alm ℂ) := do
  let x ← rd tmp m
  let e ← rd expphi m
  alm.put l m (x * e)

/-- The statements for one degree, alm_powspec_tools.cc:318-346. -/
noncomputable def rotateLP (alm : Alm ℂ) (l : ℕ) (exppsi expphi : List ℂ) (d : A2) (tmp : List ℂ) : ND (Alm ℂ × List ℂ) := do
  let tmp ← ND.det (forN (l + 1) (init1 alm l d) tmp)
  let tmps ← rotRegion (fun _ => alm) [0] l exppsi d tmp.length (fun _ => tmp)
  let alm ← ND.det (forN (l + 1) (store1 l (tmps 0) expphi) alm)
  ND.det (ok (alm, tmps 0))

/-- One iteration of the loop over degrees, alm_powspec_tools.cc:316-346. -/
noncomputable def degreeP (exppsi expphi : List ℂ) (l : ℕ) (r : Rec × Alm ℂ × List ℂ) : ND (Rec × Alm ℂ × List ℂ) := do
  let rec' ← recurseP r.1
  let x ← rotateLP r.2.1 l exppsi expphi rec'.d r.2.2
  ND.det (ok (rec', x))

/-- `rotate_alm`, alm_powspec_tools.cc:299-348: all outcomes, for any initial contents of the tables of the recursion. -/
noncomputable def rotateP (alm : Alm ℂ) (psi theta phi : ℝ) : ND (Alm ℂ) :=
  if alm.lmax = alm.mmax then do
    let r0 ← ND.any (fun junk : (ℕ → ℕ → ℝ) × (ℕ → ℕ → ℝ) => Rec.new alm.lmax.toNat theta junk.1 junk.2)
    let r ← ndForN (alm.lmax + 1).toNat (degreeP (expTab alm.lmax.toNat psi) (expTab alm.lmax.toNat phi))
      (r0, alm, List.replicate (alm.lmax.toNat + 1) 0)
    ND.det (ok r.2.1)
  else ND.det (Res.throw "rotate_alm: lmax must be equal to mmax")

/-- Component `0`, `1`, `2` of a triple. -/
def comp {α : Type} (t : α × α × α) (c : ℕ) : α := if c = 0 then t.1 else if c = 1 then t.2.1 else t.2.2

/-- The statements for one degree with three components, alm_powspec_tools.cc:379-417. -/
noncomputable def rotateL3P (alm : Alm ℂ × Alm ℂ × Alm ℂ) (l : ℕ) (exppsi expphi : List ℂ) (d : A2) (tmp : List ℂ × List ℂ × List ℂ) :
    ND ((Alm ℂ × Alm ℂ × Alm ℂ) × List ℂ × List ℂ × List ℂ) := do
  let tmp ← ND.det (forN (l + 1) (init3 alm.1 alm.2.1 alm.2.2 l d) tmp)
  let tmps ← rotRegion (comp alm) [0, 1, 2] l exppsi d tmp.1.length (comp tmp)
  let alm ← ND.det (forN (l + 1) (store3 l (tmps 0, tmps 1, tmps 2) expphi) alm)
  ND.det (ok (alm, tmps 0, tmps 1, tmps 2))

/-- One iteration of the loop over degrees, alm_powspec_tools.cc:375-418. -/
noncomputable def degree3P (exppsi expphi : List ℂ) (l : ℕ) (r : Rec × (Alm ℂ × Alm ℂ × Alm ℂ) × List ℂ × List ℂ × List ℂ) :
    ND (Rec × (Alm ℂ × Alm ℂ × Alm ℂ) × List ℂ × List ℂ × List ℂ) := do
  let rec' ← recurseP r.1
  let x ← rotateL3P r.2.1 l exppsi expphi rec'.d r.2.2
  ND.det (ok (rec', x))

/-- `rotate_alm` for temperature and polarisation, alm_powspec_tools.cc:355-419: all outcomes. -/
noncomputable def rotate3P (aT aG aC : Alm ℂ) (psi theta phi : ℝ) : ND (Alm ℂ × Alm ℂ × Alm ℂ) :=
  if aT.lmax = aT.mmax then
    if conformable aG aT ∧ conformable aC aT then do
      let r0 ← ND.any (fun junk : (ℕ → ℕ → ℝ) × (ℕ → ℕ → ℝ) => Rec.new aT.lmax.toNat theta junk.1 junk.2)
      let z := List.replicate (aT.lmax.toNat + 1) (0 : ℂ)
      let r ← ndForN (aT.lmax + 1).toNat (degree3P (expTab aT.lmax.toNat psi) (expTab aT.lmax.toNat phi)) (r0, (aT, aG, aC), z, z, z)
      ND.det (ok r.2.1)
    else ND.det (Res.throw "rotate_alm: a_lm are not conformable")
  else ND.det (Res.throw "rotate_alm: lmax must be equal to mmax")

end Verif.RotPar
