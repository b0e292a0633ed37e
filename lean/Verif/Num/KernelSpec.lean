import Verif.Num.Kernel

/-!
# Specification of the harmonic kernel
-/

namespace Verif.Num
open Verif Res

/-- The stored coefficient (`0` where nothing is stored). -/
noncomputable def coef (a : Harm.Alm ℂ) (l m : ℕ) : ℂ := match a.get l m with
  | .ok v => v
  | _ => 0

/-- The coefficient of a real field for every order: `a_{l,-m} = (-1)^m conj a_{lm}`. -/
noncomputable def coefZ (a : Harm.Alm ℂ) (l : ℕ) (m : ℤ) : ℂ :=
  if 0 ≤ m then coef a l m.natAbs else (-1) ^ m.natAbs * (starRingEnd ℂ) (coef a l m.natAbs)

/-- `Σ_X s^X_{lm} conj(b^X_{lm'})` over the components in use. -/
noncomputable def skyBeam (pol : Bool) (s b : Exps) (l : ℕ) (m m' : ℤ) : ℂ :=
  coefZ s.T l m * (starRingEnd ℂ) (coefZ b.T l m') +
  if pol then coefZ s.G l m * (starRingEnd ℂ) (coefZ b.G l m') + coefZ s.C l m * (starRingEnd ℂ) (coefZ b.C l m') else 0

/-- Contribution of degree `l` to the coefficient `(m, m')` of a ring at colatitude `θ`. -/
noncomputable def kterm (pol : Bool) (s b : Exps) (l : ℕ) (m m' : ℤ) (θ : ℝ) : ℂ :=
  (-1) ^ (m.natAbs + m'.natAbs) * (wignerD l m' m θ : ℂ) * skyBeam pol s b l m m'

/-- Expansions fit the convolver: the limits `convolver`'s constructor and `sky::read` are meant to guarantee. -/
structure Fits (lmax npsi : ℕ) (s b : Harm.Alm ℂ) : Prop where
  swf : s.WF
  sl : (lmax : ℤ) ≤ s.lmax
  sm : (lmax : ℤ) ≤ s.mmax
  bwf : b.WF
  bl : (lmax : ℤ) ≤ b.lmax
  bm : (npsi : ℤ) ≤ b.mmax + 1

/-- Everything the kernel needs. -/
structure KernelOK (pol : Bool) (s b : Exps) (lmax npsi : ℕ) : Prop where
  pos : 0 < lmax
  lt : lmax < 46341
  npsi_le : npsi ≤ lmax + 1
  fT : Fits lmax npsi s.T b.T
  fG : pol = true → Fits lmax npsi s.G b.G
  fC : pol = true → Fits lmax npsi s.C b.C

/-- A schedule executes every iteration exactly once. -/
def Sched.OK (sc : Sched) (lmax : ℕ) : Prop := ∀ mb, (sc.order mb).Perm (List.range (lmax + 1))

end Verif.Num
