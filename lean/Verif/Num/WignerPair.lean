import Verif.Num.WignerProps

/-!
# The pair evaluation of the Wigner generator: model

`wignergen::calc (nth1, nth2, firstl, resx)` of levels/cxxsupport/wigner.cc:433-591: the vectorised evaluation for
two angles at once.  A vector register `V2df` (levels/cxxsupport/ls_sse_utils_cxx.h:281-381) is a pair of numbers with
componentwise operations.  Arithmetic is exact, as in `Verif.Num.Wigner`.
-/

namespace Verif.Num
open Verif Res

/-- `V2df`, levels/cxxsupport/ls_sse_utils_cxx.h:281-381: products and differences act on each component. -/
abbrev V2 := ℝ × ℝ

/-- `any(abs(v).gt(V2df(x)))`. -/
def anyGt (v : V2) (x : ℝ) : Prop := |v.1| > x ∨ |v.2| > x

/-- `all(abs(v).ge(V2df(x)))`. -/
def allGe (v : V2) (x : ℝ) : Prop := |v.1| ≥ x ∧ |v.2| ≥ x

noncomputable instance (v : V2) (x : ℝ) : Decidable (anyGt v x) := Classical.propDecidable _

noncomputable instance (v : V2) (x : ℝ) : Decidable (allGe v x) := Classical.propDecidable _

/-- The factor that belongs to a scale: `(scale<0) ? 0. : cf[scale]`, levels/cxxsupport/wigner.cc:444, 449, 498. -/
noncomputable def corOf (cf : List ℝ) (s : ℤ) : Res ℝ := if s < 0 then ok 0 else rd cf s

/-- One of the two `while` loops of `RENORMALIZE`, levels/cxxsupport/wigner.cc:441-450; result
`(rec1, rec2, scale, corfac)` of that component. -/
noncomputable def renormC (cf : List ℝ) : ℕ → ℝ → ℝ → ℤ → ℝ → Res (ℝ × ℝ × ℤ × ℝ)
  | 0, _, _, _, _ => ub "scale leaves the table cf"
  | n + 1, r1, r2, s, c =>
    if |r2| > 2 ^ 90 then do
      let c' ← corOf cf (s + 1)
      renormC cf n (r1 * (2 : ℝ) ^ (-90 : ℤ)) (r2 * (2 : ℝ) ^ (-90 : ℤ)) (s + 1) c'
    else ok (r1, r2, s, c)

/-- The loop variables of the pair evaluation: the degree, `rec1`, `rec2`, `scale1`, `scale2`, `corfac`. -/
structure PairSt where
  l : ℤ
  r1 : V2
  r2 : V2
  s1 : ℤ
  s2 : ℤ
  c : V2

/-- `RENORMALIZE`, levels/cxxsupport/wigner.cc:435-454. -/
noncomputable def renormP (cf : List ℝ) (p : PairSt) : Res PairSt := do
  let a ← renormC cf (20 - p.s1).toNat p.r1.1 p.r2.1 p.s1 p.c.1
  let b ← renormC cf (20 - p.s2).toNat p.r1.2 p.r2.2 p.s2 p.c.2
  ok ⟨p.l, (a.1, b.1), (a.2.1, b.2.1), a.2.2.1, b.2.2.1, (a.2.2.2, b.2.2.2)⟩

/-- `if (any(abs(rec2).gt(fbig2))) RENORMALIZE;`, levels/cxxsupport/wigner.cc:513-515, 541-542, 566-567. -/
noncomputable def renormIf (cf : List ℝ) (p : PairSt) : Res PairSt :=
  if anyGt p.r2 (2 ^ 90) then renormP cf p else ok p

/-- The registers `pre0`, `pre1` (or `pre2`, `pre3`). -/
abbrev Pre := V2 × V2

/-- `GETPRE`, levels/cxxsupport/wigner.cc:456-458. -/
noncomputable def getPre (fx : List F3) (cth : V2) (lv : ℤ) : Res Pre := do
  let f ← rd fx lv
  ok ((cth - (f.f1, f.f1)) * (f.f0, f.f0), (f.f2, f.f2))

/-- `NEXTSTEP`, levels/cxxsupport/wigner.cc:460-470: the new value of `reca` and the registers for degree `lv`. -/
noncomputable def nextStep (fx : List F3) (cth : V2) (pre : Pre) (reca recb : V2) (lv : ℤ) : Res (V2 × Pre) := do
  let f ← rd fx lv
  let prec : V2 := (f.f1, f.f1)
  let preb := pre.2 * reca
  let prea := pre.1 * recb
  let t0 : V2 := (f.f0, f.f0)
  let prec := cth - prec
  let pred : V2 := (f.f2, f.f2)
  let reca := prea - preb
  ok (reca, (prec * t0, pred))

/-- The first loop (both scales negative), levels/cxxsupport/wigner.cc:507-519.  (The test of the scales stands inside the
`if` of the renormalisation; without renormalisation the scales are still the negative ones.) -/
noncomputable def pair1 (g : Gen) (cth : V2) (lmax : ℤ) : ℕ → Pre → PairSt → Res PairSt
  | 0, _, _ => ub "fuel"
  | n + 1, pre, p =>
    if p.l + 1 > lmax then ok { p with l := p.l + 1 } else do
    let q ← nextStep g.fx cth pre p.r1 p.r2 (p.l + 2)
    if p.l + 2 > lmax then ok { p with l := p.l + 2, r1 := q.1 } else do
    let q' ← nextStep g.fx cth q.2 p.r2 q.1 (p.l + 3)
    let p' ← renormIf g.cf { p with l := p.l + 2, r1 := q.1, r2 := q'.1 }
    if p'.s1 ≥ 0 ∨ p'.s2 ≥ 0 then ok p' else pair1 g cth lmax n q'.2 p'

/-- The second loop, until one component crosses the threshold, levels/cxxsupport/wigner.cc:524-545. -/
noncomputable def pair2 (g : Gen) (cth : V2) (lmax : ℤ) : ℕ → Pre → PairSt → List V2 → Res (PairSt × List V2)
  | 0, _, _, _ => ub "fuel"
  | n + 1, pre, p, res => do
    let res ← wr res p.l (p.r2 * p.c)
    if anyGt (p.r2 * p.c) g.eps then ok (p, res) else
    if p.l + 1 > lmax then ok ({ p with l := p.l + 1 }, res) else do
    let q ← nextStep g.fx cth pre p.r1 p.r2 (p.l + 2)
    let res ← wr res (p.l + 1) (q.1 * p.c)
    if anyGt (q.1 * p.c) g.eps then ok ({ p with l := p.l + 1, r1 := p.r2, r2 := q.1 }, res) else
    if p.l + 2 > lmax then ok ({ p with l := p.l + 2, r1 := q.1 }, res) else do
    let q' ← nextStep g.fx cth q.2 p.r2 q.1 (p.l + 3)
    let p' ← renormIf g.cf { p with l := p.l + 2, r1 := q.1, r2 := q'.1 }
    pair2 g cth lmax n q'.2 p' res

/-- The third loop, until both components have crossed the threshold, levels/cxxsupport/wigner.cc:551-568. -/
noncomputable def pair3 (g : Gen) (cth : V2) (lmax : ℤ) : ℕ → Pre → PairSt → List V2 → Res (PairSt × List V2)
  | 0, _, _, _ => ub "fuel"
  | n + 1, pre, p, res => do
    let res ← wr res p.l (p.r2 * p.c)
    if allGe (p.r2 * p.c) g.eps then ok (p, res) else
    if p.l + 1 > lmax then ok ({ p with l := p.l + 1 }, res) else do
    let q ← nextStep g.fx cth pre p.r1 p.r2 (p.l + 2)
    let res ← wr res (p.l + 1) (q.1 * p.c)
    if allGe (q.1 * p.c) g.eps then ok ({ p with l := p.l + 1, r1 := p.r2, r2 := q.1 }, res) else
    if p.l + 2 > lmax then ok ({ p with l := p.l + 2, r1 := q.1 }, res) else do
    let q' ← nextStep g.fx cth q.2 p.r2 q.1 (p.l + 3)
    let p' ← renormIf g.cf { p with l := p.l + 2, r1 := q.1, r2 := q'.1 }
    pair3 g cth lmax n q'.2 p' res

/-- The last loop and the statements after it, levels/cxxsupport/wigner.cc:575-588. -/
noncomputable def pair4 (fx : List F3) (cth : V2) (lmax : ℤ) : ℕ → ℤ → Pre → V2 → V2 → List V2 → Res (List V2)
  | 0, _, _, _, _, _ => ub "fuel"
  | n + 1, l, pre, r1, r2, res => do
    if l < lmax - 1 then
      let res ← wr res l r2
      let q ← nextStep fx cth pre r1 r2 (l + 2)
      let res ← wr res (l + 1) q.1
      let q' ← nextStep fx cth q.2 r2 q.1 (l + 3)
      pair4 fx cth lmax n (l + 2) q'.2 q.1 q'.1 res
    else
      let res ← wr res l r2
      if l + 1 ≤ lmax then
        let q ← nextStep fx cth pre r1 r2 (l + 2)
        wr res (l + 1) q.1
      else ok res

/-- The starting value of one component: scale and signed mantissa, levels/cxxsupport/wigner.cc:488-500. -/
noncomputable def pairStart (g : Gen) (nth : ℤ) : Res (ℤ × ℝ) := do
  let lc ← rd g.lc05 nth
  let ls ← rd g.ls05 nth
  let flip ← rd g.thetaflip nth
  let logval := (g.prefactor + lc * g.cosPow + ls * g.sinPow) * (1 / Real.log 2)
  let scale : ℤ := Tod.truncR (logval / 90) - (-4)
  let tr := Real.exp (Real.log 2 * (logval - (scale + (-4) : ℤ) * 90))
  ok (scale, if g.preMinus ^^ (flip && decide ((g.am1 + g.am2) % 2 = 1)) then -tr else tr)

/-- The block `if ((scale1<0) && (scale2<0))`, levels/cxxsupport/wigner.cc:505-520. -/
noncomputable def pairLow (g : Gen) (cth : V2) (pre : Pre) (p : PairSt) : Res PairSt :=
  if p.s1 < 0 ∧ p.s2 < 0 then pair1 g cth g.lmax (g.lmax + 2) pre p else ok p

/-- The block `if (l<=lmax)`, levels/cxxsupport/wigner.cc:522-546. -/
noncomputable def pairMid (g : Gen) (cth : V2) (p : PairSt) (res : List V2) : Res (PairSt × List V2) :=
  if p.l ≤ g.lmax then do
    let pre ← getPre g.fx cth (p.l + 1)
    pair2 g cth g.lmax (g.lmax + 2) pre p res
  else ok (p, res)

/-- `calc (nth1, nth2, firstl, resx)`, levels/cxxsupport/wigner.cc:479-588: `firstl` and the result array (`res` is its
previous contents; it has `lmax+1` entries, ls_wigner.h:170). -/
noncomputable def pcalc (g : Gen) (nth1 nth2 : ℤ) (res : List V2) : Res (ℤ × List V2) := do
  let lmax : ℤ := g.lmax
  let c1 ← rd g.costh nth1
  let c2 ← rd g.costh nth2
  let cth : V2 := (c1, c2)
  let a ← pairStart g nth1
  let b ← pairStart g nth2
  let k1 ← corOf g.cf a.1
  let k2 ← corOf g.cf b.1
  let pre ← getPre g.fx cth (g.mhi + 1)
  let p ← pairLow g cth pre ⟨g.mhi, (0, 0), (a.2, b.2), a.1, b.1, (k1, k2)⟩
  let (p, res) ← pairMid g cth p res
  let firstl := p.l
  if p.l > lmax then ok (firstl, res) else do
  let pre ← getPre g.fx cth (p.l + 1)
  let (p, res) ← pair3 g cth lmax (g.lmax + 2) pre p res
  if p.l > lmax then ok (firstl, res) else do
  let pre ← getPre g.fx cth (p.l + 1)
  let res ← pair4 g.fx cth lmax (g.lmax + 2) p.l pre (p.r1 * p.c) (p.r2 * p.c) res
  ok (firstl, res)

end Verif.Num
