import Verif.Num.WignerD
import Verif.Tod.Grid
import Mathlib.Analysis.SpecialFunctions.Log.Basic

/-!
# The Wigner matrix generator: model

`wignergen_scalar` of levels/cxxsupport/wigner.cc:267-430 (`libconviqt` calls the scalar `calc`, which
`wignergen` inherits, src/conviqt_math.cpp:707-737).  Arithmetic is exact; `ln2`, `inv_ln2` are exact.
-/

namespace Verif.Num
open Verif Res

/-- Triple `fx[l]`. -/
structure F3 where
  f0 : ℝ
  f1 : ℝ
  f2 : ℝ

/-- Members of `wignergen_scalar`, levels/cxxsupport/ls_wigner.h:119-140. -/
structure Gen where
  lmax : ℕ
  eps : ℝ
  logsum : List ℝ
  lc05 : List ℝ
  ls05 : List ℝ
  flm1 : List ℝ
  flm2 : List ℝ
  cf : List ℝ
  costh : List ℝ
  xl : List ℝ
  thetaflip : List Bool
  m1 : ℤ
  m2 : ℤ
  am1 : ℤ
  am2 : ℤ
  mlo : ℤ
  mhi : ℤ
  cosPow : ℤ
  sinPow : ℤ
  prefactor : ℝ
  fx : List F3
  preMinus : Bool

/-- Reduction of an input angle, levels/cxxsupport/wigner.cc:295-301: sign flag and adjusted angle. -/
noncomputable def adjTheta (t : ℝ) : Bool × ℝ :=
  let theta := Tod.fmodulo t (2 * Real.pi)
  let theta := if theta > Real.pi then theta - 2 * Real.pi else theta
  let flip := decide (theta < 0)
  let theta := |theta|
  let theta := if theta = 0 then 1 / 10 ^ 16 else theta
  let theta := if |theta - Real.pi| ≤ 1 / 10 ^ 15 then Real.pi - 1 / 10 ^ 15 else theta
  (flip, theta)

/-- Constructor, levels/cxxsupport/wigner.cc:267-311.  `logsum[m]` is the running sum of logarithms. -/
noncomputable def mkGen (lmax : ℕ) (thetas : List ℝ) (eps : ℝ) : Res Gen :=
  if lmax = 0 then throw "lmax too small" else
  ok { lmax := lmax, eps := eps,
       logsum := (List.range (2 * lmax + 1)).map (fun m : ℕ => ∑ j ∈ Finset.range m, Real.log ((j : ℝ) + 1)),
       lc05 := thetas.map (fun t => Real.log (Real.cos (1 / 2 * (adjTheta t).2))),
       ls05 := thetas.map (fun t => Real.log (Real.sin (1 / 2 * (adjTheta t).2))),
       flm1 := (List.range (2 * lmax + 1)).map (fun lm : ℕ => √(1 / ((lm : ℝ) + 1))),
       flm2 := (List.range (2 * lmax + 1)).map (fun lm : ℕ => √((lm : ℝ) / ((lm : ℝ) + 1))),
       cf := (List.range 19).map (fun i : ℕ => (2 : ℝ) ^ (((i : ℤ) - 4) * 90)),
       costh := thetas.map (fun t => Real.cos (adjTheta t).2),
       xl := (List.range (lmax + 1)).map (fun l : ℕ => if l = 0 then 0 else 1 / (l : ℝ)),
       thetaflip := thetas.map (fun t => (adjTheta t).1),
       m1 := -1234567890, m2 := -1234567890, am1 := -1234567890, am2 := -1234567890,
       mlo := -1234567890, mhi := -1234567890,
       cosPow := 0, sinPow := 0, prefactor := 0, preMinus := false,
       fx := List.replicate (lmax + 2) ⟨0, 0, 0⟩ }

/-- `int` multiplication; `ovf` is the outcome of a product that does not fit in 32 bits (undefined in C++). -/
def mulI (ovf : Res ℤ) (a b : ℤ) : Res ℤ := if -2 ^ 31 ≤ a * b ∧ a * b < 2 ^ 31 then ok (a * b) else ovf

/-- One entry of the recurrence table, levels/cxxsupport/wigner.cc:336-342 -/
noncomputable def fxEntry (g : Gen) (m1 m2 l : ℤ) : Res F3 := do
  let a ← rd g.flm1 (l + m1); let b ← rd g.flm1 (l - m1); let c ← rd g.flm1 (l + m2); let d ← rd g.flm1 (l - m2)
  let t := a * b * c * d
  let lt : ℝ := 2 * l + 1
  let l1 : ℝ := l + 1
  let x ← rd g.xl l; let y ← rd g.xl (l + 1)
  let a' ← rd g.flm2 (l + m1); let b' ← rd g.flm2 (l - m1); let c' ← rd g.flm2 (l + m2); let d' ← rd g.flm2 (l - m2)
  let t' := a' * b' * c' * d'
  ok ⟨l1 * lt * t, m1 * m2 * x * y, t' * l1 * x⟩

/-- Update of the recurrence table in `prepare`, levels/cxxsupport/wigner.cc:326-344. -/
noncomputable def prepTable (g : Gen) (m1' m2' mhi' : ℤ) (similar flip : Bool) : Res (List F3) :=
  if similar then
    if flip then
      forN (g.lmax - mhi').toNat (fun i fx => do
        let f ← rd fx (mhi' + i + 1)
        wr fx (mhi' + i + 1) ⟨f.f0, -f.f1, f.f2⟩) g.fx
    else ok g.fx
  else
    forN (g.lmax - mhi').toNat (fun i fx => do
      let f ← fxEntry g m1' m2' (mhi' + i)
      wr fx (mhi' + i + 1) f) g.fx

/-- `cosPow`, `sinPow`, `preMinus`, levels/cxxsupport/wigner.cc:348-360 (after the swaps). -/
def prepPows (m1' m2' mhi' : ℤ) : ℤ × ℤ × Bool :=
  if mhi' = |m1'| then
    if m1' ≥ 0 then (mhi' + m2', mhi' - m2', decide ((mhi' - m2') % 2 = 1))
    else (mhi' - m2', mhi' + m2', false)
  else
    if m2' < 0 then (mhi' - m1', mhi' + m1', decide ((mhi' + m1') % 2 = 1))
    else (mhi' + m1', mhi' - m1', false)

/-- `prepare`, levels/cxxsupport/wigner.cc:313-361. -/
noncomputable def prepare (ovf : Res ℤ) (g : Gen) (m1' m2' : ℤ) : Res Gen :=
  if m1' = g.m1 ∧ m2' = g.m2 then ok g else do
  let mlo' := min |m1'| |m2'|
  let mhi' := max |m1'| |m2'|
  let similar : Bool := decide (g.mhi = mhi' ∧ g.mlo = mlo')
  let p0 ← mulI ovf g.m1 g.m2
  let p1 ← mulI ovf m1' m2'
  let flip : Bool := decide (p0 ≠ p1)
  let fx ← prepTable g m1' m2' mhi' similar flip
  let s1 ← rd g.logsum (2 * mhi')
  let s2 ← rd g.logsum (mhi' + mlo')
  let s3 ← rd g.logsum (mhi' - mlo')
  let r := prepPows m1' m2' mhi'
  ok { g with m1 := m1', m2 := m2', am1 := |m1'|, am2 := |m2'|, mlo := mlo', mhi := mhi', fx := fx,
              prefactor := 1 / 2 * (s1 - s2 - s3), cosPow := r.1, sinPow := r.2.1, preMinus := r.2.2 }

/-- `(cth - fy[l][1])*fy[l][0]*r2 - fy[l][2]*r1` -/
noncomputable def stepRec (fx : List F3) (cth : ℝ) (l : ℤ) (r2 r1 : ℝ) : Res ℝ := do
  let f ← rd fx l
  ok ((cth - f.f1) * f.f0 * r2 - f.f2 * r1)

/-- `while (abs(rec2)>fbig)`, levels/cxxsupport/wigner.cc:389-394.  More than `fuel` iterations would push
`scale` beyond the table `cf`. -/
noncomputable def renorm : ℕ → ℝ → ℝ → ℤ → Res (ℝ × ℝ × ℤ)
  | 0, _, _, _ => ub "scale leaves the table cf"
  | n + 1, r1, r2, scale =>
    if |r2| > 2 ^ 90 then renorm n (r1 * (2 : ℝ) ^ (-90 : ℤ)) (r2 * (2 : ℝ) ^ (-90 : ℤ)) (scale + 1)
    else ok (r1, r2, scale)

/-- `while (scale<0)`, levels/cxxsupport/wigner.cc:382-395; result `(l, rec1, rec2, scale)`.  The loop runs at
most `lmax` times; running out of `fuel` is mapped to `ub`. -/
noncomputable def phase1 (fx : List F3) (cth : ℝ) (lmax : ℤ) : ℕ → ℤ → ℝ → ℝ → ℤ → Res (ℤ × ℝ × ℝ × ℤ)
  | 0, _, _, _, _ => ub "fuel"
  | n + 1, l, r1, r2, scale =>
    if scale < 0 then
      if l + 1 > lmax then ok (l + 1, r1, r2, scale) else do
      let r1' ← stepRec fx cth (l + 1) r2 r1
      if l + 2 > lmax then ok (l + 2, r1', r2, scale) else do
      let r2' ← stepRec fx cth (l + 2) r1' r2
      let q ← renorm (20 - scale).toNat r1' r2' scale
      phase1 fx cth lmax n (l + 2) q.1 q.2.1 q.2.2
    else ok (l, r1, r2, scale)

/-- `for (;l<lmax-1;l+=2)` until the threshold is crossed, levels/cxxsupport/wigner.cc:401-407. -/
noncomputable def phase2 (fx : List F3) (cth eps : ℝ) (lmax : ℤ) : ℕ → ℤ → ℝ → ℝ → Res (ℤ × ℝ × ℝ)
  | 0, _, _, _ => ub "fuel"
  | n + 1, l, r1, r2 =>
    if l < lmax - 1 then
      if |r2| > eps then ok (l, r1, r2) else do
      let r1' ← stepRec fx cth (l + 1) r2 r1
      if |r1'| > eps then ok (l + 1, r2, r1') else do
      let r2' ← stepRec fx cth (l + 2) r1' r2
      phase2 fx cth eps lmax n (l + 2) r1' r2'
    else ok (l, r1, r2)

/-- The final test for the threshold, levels/cxxsupport/wigner.cc:408-412. -/
noncomputable def phase3 (fx : List F3) (cth eps : ℝ) (lmax : ℤ) (l : ℤ) (r1 r2 : ℝ) : Res (ℤ × ℝ × ℝ) :=
  if |r2| ≤ eps then
    if l + 1 ≤ lmax then do
      let r1' ← stepRec fx cth (l + 1) r2 r1
      ok (l + 1, r2, r1')
    else ok (l + 1, r1, r2)
  else ok (l, r1, r2)

/-- `for (;l<lmax-1;l+=2)` filling the result, levels/cxxsupport/wigner.cc:419-423. -/
noncomputable def phase4 (fx : List F3) (cth : ℝ) (lmax : ℤ) : ℕ → ℤ → ℝ → ℝ → List ℝ → Res (ℤ × ℝ × ℝ × List ℝ)
  | 0, _, _, _, _ => ub "fuel"
  | n + 1, l, r1, r2, res =>
    if l < lmax - 1 then do
      let r1' ← stepRec fx cth (l + 1) r2 r1
      let res ← wr res (l + 1) r1'
      let r2' ← stepRec fx cth (l + 2) r1' r2
      let res ← wr res (l + 2) r2'
      phase4 fx cth lmax n (l + 2) r1' r2' res
    else ok (l, r1, r2, res)

/-- The final `while (true)`, levels/cxxsupport/wigner.cc:424-430. -/
noncomputable def phase5 (fx : List F3) (cth : ℝ) (lmax : ℤ) : ℕ → ℤ → ℝ → ℝ → List ℝ → Res (List ℝ)
  | 0, _, _, _, _ => ub "fuel"
  | n + 1, l, r1, r2, res =>
    if l + 1 > lmax then ok res else do
    let r1' ← stepRec fx cth (l + 1) r2 r1
    let res ← wr res (l + 1) r1'
    if l + 2 > lmax then ok res else do
    let r2' ← stepRec fx cth (l + 2) r1' r2
    let res ← wr res (l + 2) r2'
    phase5 fx cth lmax n (l + 2) r1' r2' res

/-- `calc (nth, firstl, resx)`, levels/cxxsupport/wigner.cc:369-431: `firstl` and the result array (`res` is its
previous contents; it has `lmax+1` entries). -/
noncomputable def wcalc (g : Gen) (nth : ℤ) (res : List ℝ) : Res (ℤ × List ℝ) := do
  let lmax : ℤ := g.lmax
  let cth ← rd g.costh nth
  let lc ← rd g.lc05 nth
  let ls ← rd g.ls05 nth
  let flip ← rd g.thetaflip nth
  let logval := (g.prefactor + lc * g.cosPow + ls * g.sinPow) * (1 / Real.log 2)
  let scale : ℤ := Tod.truncR (logval / 90) - (-4)
  let rec2 := Real.exp (Real.log 2 * (logval - (scale + (-4) : ℤ) * 90))
  let rec2 := if g.preMinus ^^ (flip && decide ((g.am1 + g.am2) % 2 = 1)) then -rec2 else rec2
  let (l, rec1, rec2, scale) ← phase1 g.fx cth lmax (g.lmax + 2) g.mhi 0 rec2 scale
  if scale < 0 then ok (lmax + 1, res) else do
  let s ← rd g.cf scale
  let (l, rec1, rec2) ← phase2 g.fx cth g.eps lmax (g.lmax + 2) l (rec1 * s) (rec2 * s)
  let (l, rec1, rec2) ← phase3 g.fx cth g.eps lmax l rec1 rec2
  let firstl := l
  if l > lmax then ok (firstl, res) else do
  let res ← wr res l rec2
  let (l, rec1, rec2, res) ← phase4 g.fx cth lmax (g.lmax + 2) l rec1 rec2 res
  let res ← phase5 g.fx cth lmax (g.lmax + 2) l rec1 rec2 res
  ok (firstl, res)

end Verif.Num
