import Verif.Api.ScaleL
import Mathlib.Analysis.SpecialFunctions.Exp
import Mathlib.Analysis.SpecialFunctions.Sqrt
import Mathlib.Analysis.Complex.Basic
import Mathlib.Analysis.Real.Pi.Bounds
import Mathlib.Analysis.SpecialFunctions.Log.Deriv
import Mathlib.Analysis.Complex.ExponentialBounds

/-!
# The beam and sky objects: model

`conviqt::beam`, `conviqt::sky` (src/conviqt.hpp:38-86, src/conviqt_math.cpp:58-109) and `smoothWithGauss`
(levels/Healpix_cxx/alm_powspec_tools.cc:253-286).  Exact arithmetic on `ℂ`; the code stores single precision.
`fname`, `verbosity` and `fwhm_deconv` are never read again and not modelled.
-/

namespace Verif.Obj
open Verif Res Verif.Harm

/-- `class beam`, src/conviqt.hpp:38-60.  The constructors leave `lmax`, `mmax`, `pol` indeterminate (`none`). -/
structure Beam where
  T : Alm ℂ
  G : Alm ℂ
  C : Alm ℂ
  normalized : Bool
  lmax : Option Int
  mmax : Option Int
  pol : Option Bool

/-- `class sky`, src/conviqt.hpp:62-86. -/
structure Sky where
  T : Alm ℂ
  G : Alm ℂ
  C : Alm ℂ
  lmax : Option Int
  pol : Option Bool

/-- `Alm()`, levels/Healpix_cxx/ls_alm.h:96-97: `lmax = mmax = 0`, one indeterminate coefficient (`junk`). -/
def almDefault (junk : ℂ) : Alm ℂ := ⟨0, 0, [junk]⟩

/-- `beam()`, src/conviqt.hpp:40. -/
def Beam.fresh (junk : ℂ) : Beam :=
  ⟨almDefault junk, almDefault junk, almDefault junk, false, none, none, none⟩

/-- `sky()`, src/conviqt.hpp:64. -/
def Sky.fresh (junk : ℂ) : Sky := ⟨almDefault junk, almDefault junk, almDefault junk, none, none⟩

/-- `x *= scale` for a complex and a real number. -/
noncomputable def mulR (s : ℝ) (x : ℂ) : ℂ := x * (s : ℂ)

/-- `beam::normalize`, src/conviqt_math.cpp:65-89: the returned factor and the new state of the object.  Reading an
indeterminate `pol` is undefined.  For `b00 = 0` the code divides by zero; all theorems exclude this. -/
noncomputable def normalize (b : Beam) : Res (ℝ × Beam) :=
  if b.normalized then ok (1, b)
  else if 0 ≤ b.T.lmax then do
    let c ← b.T.get 0 0
    let scale := 1 / (2 * √Real.pi * c.re)
    match b.pol with
    | none => ub "indeterminate pol"
    | some p => ok (scale, { b with
        T := b.T.scale (mulR scale)
        G := if p then b.G.scale (mulR scale) else b.G
        C := if p then b.C.scale (mulR scale) else b.C
        normalized := true })
  else ok (0, { b with normalized := true })

/-- `sky::remove_monopole`, src/conviqt_math.cpp:96-100. -/
noncomputable def removeMonopole (s : Sky) : Res Sky :=
  if 0 ≤ s.T.lmax then do
    let T ← s.T.put 0 0 0
    ok { s with T := T }
  else ok s

/-- `sky::remove_dipole`, src/conviqt_math.cpp:102-109. -/
noncomputable def removeDipole (s : Sky) : Res Sky :=
  if 1 ≤ s.T.lmax then do
    let T ← s.T.put 1 0 0
    if 1 ≤ T.mmax then do
      let T ← T.put 1 1 0
      ok { s with T := T }
    else ok { s with T := T }
  else ok s

/-! ## Gaussian smoothing -/

/-- `fwhm2sigma`, levels/cxxsupport/ls_constants.h:57-59. -/
noncomputable def fwhm2sigma : ℝ := 1 / (23548200450309493 / 10000000000000000)

/-- `arcmin2rad`, levels/cxxsupport/ls_constants.h:53-54. -/
noncomputable def arcmin2rad : ℝ := Real.pi / 180 / 60

/-- `Alm::ScaleL(factor)`, levels/Healpix_cxx/ls_alm.h:124-131, with its assertion; the reads `factor[l]`, `l ≤ lmax`,
are in bounds by the assertion. -/
noncomputable def scaleArr (a : Alm ℂ) (factor : List ℝ) : Res (Alm ℂ) :=
  if (a.lmax : ℤ) < factor.length then a.scaleL (fun x l => mulR (factor.getD l 0) x)
  else throw "alm.ScaleL: factor array too short"

/-- `fct`, alm_powspec_tools.cc:256, 276. -/
noncomputable def fctOf (fwhm : ℝ) : ℝ := if 0 ≤ fwhm then 1 else -1

/-- The array `gb`, alm_powspec_tools.cc:257-260 and :277-281. -/
noncomputable def gaussArr (lmax : ℤ) (fwhm : ℝ) : List ℝ :=
  (List.range (lmax + 1).toNat).map (fun l : ℕ =>
    Real.exp (-0.5 * fctOf fwhm * l * (l + 1) * (fwhm * fwhm2sigma) * (fwhm * fwhm2sigma)))

/-- `smoothWithGauss(alm, fwhm)`, alm_powspec_tools.cc:253-262. -/
noncomputable def smooth (a : Alm ℂ) (fwhm : ℝ) : Res (Alm ℂ) := scaleArr a (gaussArr a.lmax fwhm)

/-- `smoothWithGauss(almT, almG, almC, fwhm)`, alm_powspec_tools.cc:270-286. -/
noncomputable def smoothPol (T G C : Alm ℂ) (fwhm : ℝ) : Res (Alm ℂ × Alm ℂ × Alm ℂ) := do
  let factPol := Real.exp (2 * fctOf fwhm * (fwhm * fwhm2sigma) * (fwhm * fwhm2sigma))
  let gb := gaussArr T.lmax fwhm
  let T' ← scaleArr T gb
  let gb' := gb.map (fun x => x * factPol)
  let G' ← scaleArr G gb'
  let C' ← scaleArr C gb'
  ok (T', G', C')

end Verif.Obj
