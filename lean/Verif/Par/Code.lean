import Verif.Par.Loops
import Verif.Num.Kernel

/-!
# The parallel regions of the kernel as thread programs: model

`conviqt_hemiscm` / `conviqt_hemiscm_pol`, src/conviqt_math.cpp:704-791 and 960-1051, and `todAnnulus`, :1197-1265, with every access to
the shared cubes, tables and profiling counters spelled out.  Exact arithmetic.  The sky and beam expansions, the co-latitudes and
the dimensions, to which these regions never store, are constants of the programs.
-/

namespace Verif.Par
open Verif Res

/-- The four shared cubes `my_Cmm1`, `my_Cmm2`, `my_tod1`, `my_tod2`, src/conviqt_math.cpp:680-683. -/
inductive Arr where
  | C1 | C2 | T1 | T2
  deriving DecidableEq

/-- Shared doubles: real and imaginary parts of cube elements, the tables `cs`, `sn`, `cs0`, `sn0` (:701-702), and the
counters `t_wigner_init`, `n_wigner_init`, `t_wigner_prepare`, `n_wigner_prepare` of the convolver (:709-710, 724-725). -/
inductive Cell where
  | cub (a : Arr) (i j k : ℕ) (im : Bool)
  | cs (i : ℕ) | sn (i : ℕ) | cs0 (i : ℕ) | sn0 (i : ℕ)
  | tInit | nInit | tPrep | nPrep
  deriving DecidableEq

/-- Code of a thread working on these doubles. -/
abbrev CProg := Prog Cell ℝ

/-- Dimensions of the cubes, src/conviqt_math.cpp:682-685: `alloc(nphi, npsi, my_ntheta)`. -/
structure Dims where
  n1 : ℕ
  n2 : ℕ
  n3 : ℕ

/-- The element `a(i,j,k)`: index check. -/
def elem (D : Dims) (i j k : ℤ) : Res (ℕ × ℕ × ℕ) :=
  if (0 ≤ i ∧ i < D.n1) ∧ (0 ≤ j ∧ j < D.n2) ∧ (0 ≤ k ∧ k < D.n3) then ok (i.toNat, j.toNat, k.toNat) else ub "arr3 index"

/-- `x = tab[i]` for a table of length `n` -/
def tabP (c : ℕ → Cell) (n : ℕ) (i : ℤ) : CProg ℝ :=
  if 0 ≤ i ∧ i < n then Prog.rdP (c i.toNat) else .ret (ub "read out of bounds")

/-- `z.re += x` (or `z.im += x`): load and store -/
def addP (c : Cell) (x : ℝ) : CProg Unit := do
  let v ← Prog.rdP c
  Prog.wrP c (v + x)

/-- `a(i,j,k).re += x; a(i,j,k).im += y` -/
def incP (D : Dims) (a : Arr) (i j k : ℤ) (x y : ℝ) : CProg Unit := do
  let e ← Prog.lift (elem D i j k)
  addP (.cub a e.1 e.2.1 e.2.2 false) x
  addP (.cub a e.1 e.2.1 e.2.2 true) y

/-! ## accumulation, src/conviqt_math.cpp:704-778 (960-1038) -/

/-- The part for negative msky, src/conviqt_math.cpp:763-774 (1023-1034). -/
noncomputable def termNegP (D : Dims) (lmax mbeam msky lat : ℤ) (dsign en en2 : ℝ) (p : ℝ × ℝ × ℝ × ℝ) : CProg Unit :=
  if msky ≠ 0 then do
    let tmp3 := dsign * (p.1 - p.2.1)
    let tmp4 := -dsign * (p.2.2.1 + p.2.2.2)
    incP D .C1 (-msky + lmax) mbeam lat (tmp3 * en) (tmp4 * en)
    incP D .C2 (-msky + lmax) mbeam lat (tmp3 * en2) (tmp4 * en2)
  else .ret (ok ())

/-- Body of the loop over `ii`, src/conviqt_math.cpp:739-775 (995-1035); the private data is `dlb`. -/
noncomputable def termP (D : Dims) (pol : Bool) (s b : Num.Exps) (lmax mbeam msky lat : ℤ) (dsign dsb : ℝ) (dmm dmmneg : List ℝ)
    (ii : ℤ) (dlb0 : ℝ) : CProg ℝ := do
  let dlb := -dlb0
  let d ← Prog.lift (rd dmm ii)
  let dn ← Prog.lift (rd dmmneg ii)
  let ep := dsb * d
  let en := dsb * dn
  let ep2 := dlb * en
  let en2 := dlb * ep
  let p ← Prog.lift (Num.prods pol s b ii msky mbeam)
  let tmp1 := p.1 + p.2.1
  let tmp2 := p.2.2.1 - p.2.2.2
  incP D .C1 (msky + lmax) mbeam lat (tmp1 * ep) (tmp2 * ep)
  incP D .C2 (msky + lmax) mbeam lat (tmp1 * ep2) (tmp2 * ep2)
  termNegP D lmax mbeam msky lat dsign en en2 p
  .ret (ok dlb)

/-- Body of the loop over latitudes, src/conviqt_math.cpp:729-776 (985-1036); the generators and their buffers are private. -/
noncomputable def latP (D : Dims) (pol : Bool) (s b : Num.Exps) (lmax : ℕ) (mbeam msky : ℤ) (lat : ℕ) (q : Num.TS) : CProg Num.TS := do
  let dsignb := Num.xpow mbeam 1
  let dsign := Num.xpow msky 1
  let dsb := dsign * dsignb
  let r ← Prog.lift (Num.wcalc q.g lat q.buf)
  let rn ← Prog.lift (Num.wcalc q.gneg lat q.bufneg)
  let firstl := max r.1 rn.1
  let dlb := -(Num.xpow firstl dsignb)
  let _ ← Prog.forN ((lmax : ℤ) + 1 - firstl).toNat
    (fun k x => termP D pol s b lmax mbeam msky lat dsign dsb r.2 rn.2 (firstl + k) x) dlb
  .ret (ok { q with buf := r.2, bufneg := rn.2 })

/-- `if (omp_get_thread_num() == 0) { t += dt; ++n; }`, src/conviqt_math.cpp:708-711, 723-726; `dt` is the clock difference. -/
noncomputable def profP (thread : ℕ) (ct cn : Cell) (dt : ℝ) : CProg Unit :=
  if thread = 0 then do
    addP ct dt
    addP cn 1
  else .ret (ok ())

/-- Body of the loop over `msky`, src/conviqt_math.cpp:716-777, executed by the thread numbered `thread`; `clk` is the time the
preparation takes. -/
noncomputable def mskyP (clk : ℝ) (D : Dims) (ovf : Res ℤ) (pol : Bool) (s b : Num.Exps) (lmax nlat mbeam : ℕ) (thread msky : ℕ)
    (q : Num.TS) : CProg Num.TS := do
  let g ← Prog.lift (Num.prepare ovf q.g mbeam msky)
  let gneg ← Prog.lift (Num.prepare ovf q.gneg mbeam (-msky))
  profP thread .tPrep .nPrep clk
  Prog.forN nlat (fun lat q => latP D pol s b lmax mbeam msky lat q) { q with g := g, gneg := gneg }

/-- Counting the construction of the generators, src/conviqt_math.cpp:708-711, before the first of the loops. -/
noncomputable def initP (clk : ℝ) (mbeam thread : ℕ) : CProg Unit :=
  if mbeam = 0 then profP thread .tInit .nInit clk else .ret (ok ())

/-- The work-shared loop over `msky` for one `mbeam`, src/conviqt_math.cpp:715-777; before the first one thread 0 counts the
construction of the generators (:708-711). -/
noncomputable def kernLoop (clk : ℝ) (D : Dims) (ovf : Res ℤ) (pol : Bool) (s b : Num.Exps) (lmax nlat mbeam : ℕ) : Loop Cell ℝ Num.TS where
  pre thread q := do
    initP clk mbeam thread
    .ret (ok q)
  iters := List.range (lmax + 1)
  body := mskyP clk D ovf pol s b lmax nlat mbeam

/-- Body of the loop that fills the tables, src/conviqt_math.cpp:782-790 (1042-1050), `ii = lmax + msky`. -/
noncomputable def tabBody (lmax : ℕ) (ii : ℕ) (q : Num.TS) : CProg Num.TS := do
  let arg : ℝ := -(Real.pi / 2) * ((ii : ℝ) - lmax)
  Prog.wrP (.cs ii) (Real.cos arg)
  Prog.wrP (.sn ii) (Real.sin arg)
  let arg : ℝ := ii * (2 * Real.pi * lmax / (2 * lmax + 1))
  Prog.wrP (.cs0 ii) (Real.cos arg)
  Prog.wrP (.sn0 ii) (Real.sin arg)
  .ret (ok q)

/-- src/conviqt_math.cpp:781-790.  If `npsi = 0` the count of line 708 would move here; a convolver always has `npsi > 0`. -/
noncomputable def tabLoop (lmax : ℕ) : Loop Cell ℝ Num.TS where
  pre _ q := .ret (ok q)
  iters := List.range (2 * lmax + 1)
  body _ ii q := tabBody lmax ii q

/-- The loops of the region in `conviqt_hemiscm`, src/conviqt_math.cpp:704-791 (960-1051). -/
noncomputable def kernRegion (clk : ℝ) (D : Dims) (ovf : Res ℤ) (pol : Bool) (s b : Num.Exps) (lmax npsi nlat : ℕ) : List (Loop Cell ℝ Num.TS) :=
  (List.range npsi).map (kernLoop clk D ovf pol s b lmax nlat) ++ [tabLoop lmax]

/-! ## ring synthesis, src/conviqt_math.cpp:1184-1274 -/

/-- `tempR = R; tempI = I; R = c*tempR + s*tempI; I = c*tempI - s*tempR` -/
noncomputable def rotP (D : Dims) (a : Arr) (i j k : ℤ) (c s : ℝ) : CProg Unit := do
  let e ← Prog.lift (elem D i j k)
  let R ← Prog.rdP (.cub a e.1 e.2.1 e.2.2 false)
  let I ← Prog.rdP (.cub a e.1 e.2.1 e.2.2 true)
  Prog.wrP (.cub a e.1 e.2.1 e.2.2 false) (c * R + s * I)
  Prog.wrP (.cub a e.1 e.2.1 e.2.2 true) (c * I - s * R)

/-- The two cubes of one call of `todAnnulus`, src/conviqt_math.cpp:793-794: `Cmm` and `tod`. -/
structure Pair where
  C : Arr
  T : Arr

/-- Body of the first loop, src/conviqt_math.cpp:1204-1219. -/
noncomputable def bodyA (D : Dims) (a : Pair) (npsi nlat : ℕ) (ii : ℕ) (q : List ℂ) : CProg (List ℂ) := do
  let cos1 ← tabP .cs D.n1 ii
  let sin1 ← tabP .sn D.n1 ii
  Prog.forL (List.range npsi) (fun mbeam q =>
    Prog.forL (List.range nlat) (fun lat q => do
      rotP D a.C ii mbeam lat cos1 sin1
      .ret (ok q)) q) q

/-- `Cmsky[ii] = Cmm(ii, mbeam, lat)`, src/conviqt_math.cpp:1227 -/
noncomputable def fillP (D : Dims) (a : Arr) (mbeam lat : ℕ) (ii : ℕ) (q : List ℂ) : CProg (List ℂ) := do
  let e ← Prog.lift (elem D ii mbeam lat)
  let R ← Prog.rdP (.cub a e.1 e.2.1 e.2.2 false)
  let I ← Prog.rdP (.cub a e.1 e.2.1 e.2.2 true)
  Prog.lift (wr q ii ⟨R, I⟩)

/-- `tod(msky, mbeam, lat) = Cmsky[msky]`, src/conviqt_math.cpp:1231 -/
noncomputable def drainP (D : Dims) (a : Arr) (mbeam lat : ℕ) (k : ℕ) (q : List ℂ) : CProg (List ℂ) := do
  let x ← Prog.lift (rd q k)
  let e ← Prog.lift (elem D k mbeam lat)
  Prog.wrP (.cub a e.1 e.2.1 e.2.2 false) x.re
  Prog.wrP (.cub a e.1 e.2.1 e.2.2 true) x.im
  .ret (ok q)

/-- One latitude of the second loop, src/conviqt_math.cpp:1224-1233; the private data is `Cmsky`. -/
noncomputable def latB (D : Dims) (a : Pair) (fft : List ℂ → List ℂ) (lmax mbeam lat : ℕ) (q : List ℂ) : CProg (List ℂ) := do
  let q ← Prog.forL (List.range (2 * lmax + 1)) (fillP D a.C mbeam lat) q
  Prog.forL (List.range (2 * lmax + 1)) (drainP D a.T mbeam lat) (fft q)

/-- Body of the second loop, src/conviqt_math.cpp:1223-1234. -/
noncomputable def bodyB (D : Dims) (a : Pair) (fft : List ℂ → List ℂ) (lmax nlat : ℕ) (mbeam : ℕ) (q : List ℂ) : CProg (List ℂ) :=
  Prog.forL (List.range nlat) (fun lat q => latB D a fft lmax mbeam lat q) q

/-- Body of the third loop, src/conviqt_math.cpp:1238-1263. -/
noncomputable def bodyC (D : Dims) (a : Pair) (lmax npsi nlat : ℕ) (ii : ℕ) (q : List ℂ) : CProg (List ℂ) := do
  let cos0 ← tabP .cs0 D.n1 ii
  let sin0 ← tabP .sn0 D.n1 ii
  Prog.forL (List.range npsi) (fun mbeam q => do
    let cos1 ← tabP .cs D.n1 ((mbeam : ℤ) + lmax)
    let sin1 ← tabP .sn D.n1 ((mbeam : ℤ) + lmax)
    Prog.forL (List.range nlat) (fun lat q => do
      rotP D a.T ii mbeam lat cos0 sin0
      rotP D a.T ii mbeam lat cos1 sin1
      .ret (ok q)) q) q

noncomputable def loopA (D : Dims) (a : Pair) (lmax npsi nlat : ℕ) : Loop Cell ℝ (List ℂ) where
  pre _ q := .ret (ok q)
  iters := List.range (2 * lmax + 1)
  body _ := bodyA D a npsi nlat

noncomputable def loopB (D : Dims) (a : Pair) (fft : List ℂ → List ℂ) (lmax npsi nlat : ℕ) : Loop Cell ℝ (List ℂ) where
  pre _ q := .ret (ok q)
  iters := List.range npsi
  body _ := bodyB D a fft lmax nlat

noncomputable def loopC (D : Dims) (a : Pair) (lmax npsi nlat : ℕ) : Loop Cell ℝ (List ℂ) where
  pre _ q := .ret (ok q)
  iters := List.range (2 * lmax + 1)
  body _ := bodyC D a lmax npsi nlat

/-- The loops of the region of `todAnnulus`, src/conviqt_math.cpp:1197-1265; `fft` is `p1.backward`. -/
noncomputable def annRegion (D : Dims) (a : Pair) (fft : List ℂ → List ℂ) (lmax npsi nlat : ℕ) : List (Loop Cell ℝ (List ℂ)) :=
  [loopA D a lmax npsi nlat, loopB D a fft lmax npsi nlat, loopC D a lmax npsi nlat]

end Verif.Par
