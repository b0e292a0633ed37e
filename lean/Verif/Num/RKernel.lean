import Verif.Num.RingData

/-!
# The kernel and the ring synthesis in floating point: model

The same functions as in `Num/Kernel.lean` and `Num/RingData.lean`, with every operation of the code rounded: products of coefficients in
single precision, everything else in double precision.  Negations, and the signs `dsignb`, `dsign`, `dsb`, `dlb` (which are 1 or -1), are
exact.  Exponents are unbounded (no overflow or underflow); no operations are fused.

What the generator of d-functions returns after `prepare` and `calc`, the four tables of sines and cosines, and `cfft::backward` are
parameters: their accuracy is a hypothesis of the theorems.
-/

namespace Verif.Num
open Verif Res

/-- Arithmetic and libraries the kernel runs on. -/
structure FKern where
  /-- rounding to `float` -/
  rs : ℝ → ℝ
  /-- rounding to `double` -/
  rb : ℝ → ℝ
  /-- `prepare(mbeam, m)` and `calc(lat, firstl)` for the ring with the given number: first degree and elements -/
  gen : ℕ → ℤ → ℕ → ℤ × List ℝ
  /-- `cs`, `sn`, `cs0`, `sn0`, src/conviqt_math.cpp:780-790 -/
  cs : List ℝ
  sn : List ℝ
  cs0 : List ℝ
  sn0 : List ℝ
  /-- `cfft::backward` for length `nphi` -/
  fft : List ℂ → List ℂ

/-- `prod1 … prod4`; unpolarised src/conviqt_math.cpp:749-752, polarised :1009-1012: `float` operations. -/
noncomputable def prodsR (f : FKern) (pol : Bool) (s b : Exps) (ii msky mbeam : ℤ) : Res (ℝ × ℝ × ℝ × ℝ) :=
  if pol then do
    let sT ← s.T.get ii msky; let sG ← s.G.get ii msky; let sC ← s.C.get ii msky
    let bT ← b.T.get ii mbeam; let bG ← b.G.get ii mbeam; let bC ← b.C.get ii mbeam
    let sum3 := fun x y z : ℝ => f.rs (f.rs (f.rs x + f.rs y) + f.rs z)
    ok (sum3 (sT.re * bT.re) (sG.re * bG.re) (sC.re * bC.re), sum3 (sT.im * bT.im) (sG.im * bG.im) (sC.im * bC.im),
        sum3 (sT.im * bT.re) (sG.im * bG.re) (sC.im * bC.re), sum3 (sT.re * bT.im) (sG.re * bG.im) (sC.re * bC.im))
  else do
    let sT ← s.T.get ii msky
    let bT ← b.T.get ii mbeam
    ok (f.rs (sT.re * bT.re), f.rs (sT.im * bT.im), f.rs (sT.im * bT.re), f.rs (sT.re * bT.im))

/-- `re += x; im += y` -/
noncomputable def incrR (f : FKern) (a : A3 ℂ) (i j k : ℤ) (x y : ℝ) : Res (A3 ℂ) :=
  upd3 a i j k (fun c => ⟨f.rb (c.re + x), f.rb (c.im + y)⟩)

/-- The part of the loop body for negative msky, src/conviqt_math.cpp:763-774 (1023-1034). -/
noncomputable def termNegR (f : FKern) (lmax mbeam msky lat : ℤ) (dsign en en2 : ℝ) (p : ℝ × ℝ × ℝ × ℝ) (st : KS) : Res KS :=
  if msky ≠ 0 then do
    let tmp3 := f.rb (dsign * f.rb (p.1 - p.2.1))
    let tmp4 := f.rb (-dsign * f.rb (p.2.2.1 + p.2.2.2))
    let C1 ← incrR f st.C1 (-msky + lmax) mbeam lat (f.rb (tmp3 * en)) (f.rb (tmp4 * en))
    let C2 ← incrR f st.C2 (-msky + lmax) mbeam lat (f.rb (tmp3 * en2)) (f.rb (tmp4 * en2))
    ok { st with C1 := C1, C2 := C2 }
  else ok st

/-- Body of the loop over `ii`, src/conviqt_math.cpp:739-775 (995-1035). -/
noncomputable def termR (f : FKern) (pol : Bool) (s b : Exps) (lmax mbeam msky lat : ℤ) (dsign dsb : ℝ) (dmm dmmneg : List ℝ) (ii : ℤ)
    (st : KS) : Res KS := do
  let dlb := -st.dlb
  let d ← rd dmm ii
  let dn ← rd dmmneg ii
  let ep := f.rb (dsb * d)
  let en := f.rb (dsb * dn)
  let ep2 := f.rb (dlb * en)
  let en2 := f.rb (dlb * ep)
  let p ← prodsR f pol s b ii msky mbeam
  let tmp1 := f.rb (p.1 + p.2.1)
  let tmp2 := f.rb (p.2.2.1 - p.2.2.2)
  let C1 ← incrR f st.C1 (msky + lmax) mbeam lat (f.rb (tmp1 * ep)) (f.rb (tmp2 * ep))
  let C2 ← incrR f st.C2 (msky + lmax) mbeam lat (f.rb (tmp1 * ep2)) (f.rb (tmp2 * ep2))
  termNegR f lmax mbeam msky lat dsign en en2 p ⟨dlb, C1, C2⟩

/-- Body of the loop over latitudes for the ring with number `it`, src/conviqt_math.cpp:729-776 (985-1036). -/
noncomputable def latBodyR (f : FKern) (pol : Bool) (s b : Exps) (lmax mbeam msky lat it : ℕ) (q : A3 ℂ × A3 ℂ) : Res (A3 ℂ × A3 ℂ) := do
  let dsignb := xpow mbeam 1
  let dsign := xpow msky 1
  let dsb := dsign * dsignb
  let r := f.gen mbeam msky it
  let rn := f.gen mbeam (-msky) it
  let firstl := max r.1 rn.1
  let dlb := -(xpow firstl dsignb)
  let st ← forN ((lmax : ℤ) + 1 - firstl).toNat
    (fun k st => termR f pol s b lmax mbeam msky lat dsign dsb r.2 rn.2 (firstl + k) st) ⟨dlb, q.1, q.2⟩
  ok (st.C1, st.C2)

/-- The parallel region, src/conviqt_math.cpp:704-778 (960-1038), for the rings `mine`; `order` is the order in which the iterations over
`msky` run.  (The generators of the threads hold no state that influences results: C39.) -/
noncomputable def accumulateR (f : FKern) (order : ℕ → List ℕ) (pol : Bool) (s b : Exps) (lmax npsi : ℕ) (mine : List ℕ) :
    Res (A3 ℂ × A3 ℂ) :=
  forL (List.range npsi) (fun mbeam q =>
    forL (order mbeam) (fun msky q =>
      forL (List.range mine.length) (fun lat q => latBodyR f pol s b lmax mbeam msky lat (mine.getD lat 0) q) q) q)
    (zero3 (2 * lmax + 1) npsi mine.length, zero3 (2 * lmax + 1) npsi mine.length)

/-- `R = c*R + s*I; I = c*I - s*R` -/
noncomputable def rotR (f : FKern) (c s : ℝ) (z : ℂ) : ℂ :=
  ⟨f.rb (f.rb (c * z.re) + f.rb (s * z.im)), f.rb (f.rb (c * z.im) - f.rb (s * z.re))⟩

/-- First loop of `todAnnulus`, src/conviqt_math.cpp:1202-1220. -/
noncomputable def annulusAR (f : FKern) (order : List ℕ) (npsi nlat : ℕ) (C : A3 ℂ) : Res (A3 ℂ) :=
  forL order (fun ii C => do
    let cos1 ← rd f.cs ii
    let sin1 ← rd f.sn ii
    forL (List.range npsi) (fun mbeam C =>
      forL (List.range nlat) (fun lat C => upd3 C ii mbeam lat (rotR f cos1 sin1)) C) C) C

/-- Third loop of `todAnnulus`, src/conviqt_math.cpp:1236-1263. -/
noncomputable def annulusCR (f : FKern) (order : List ℕ) (lmax npsi nlat : ℕ) (tod : A3 ℂ) : Res (A3 ℂ) :=
  forL order (fun ii tod => do
    let cos0 ← rd f.cs0 ii
    let sin0 ← rd f.sn0 ii
    forL (List.range npsi) (fun mbeam tod => do
      let cos1 ← rd f.cs ((mbeam : ℤ) + lmax)
      let sin1 ← rd f.sn ((mbeam : ℤ) + lmax)
      forL (List.range nlat) (fun lat tod => upd3 tod ii mbeam lat (fun z => rotR f cos1 sin1 (rotR f cos0 sin0 z))) tod) tod) tod

/-- `todAnnulus`, src/conviqt_math.cpp:1184-1274 -/
noncomputable def todAnnulusR (f : FKern) (oA oB oC : List ℕ) (lmax npsi nlat : ℕ) (C : A3 ℂ) : Res (A3 ℂ) := do
  let C ← annulusAR f oA npsi nlat C
  let tod ← annulusB oB f.fft lmax nlat C (zero3 (2 * lmax + 1) npsi nlat)
  annulusCR f oC lmax npsi nlat tod

/-- What a rank computes for its rings `mine`, src/conviqt_math.cpp:670-793 (922-1053), in the order of transmission (:1135-1144). -/
noncomputable def kernelRingsR (f : FKern) (o : Orders) (pol : Bool) (s b : Exps) (c : Tod.Cfg) (mine : List ℕ) :
    Res (List (List ℝ) × List (List ℝ)) := do
  let C ← accumulateR f o.sc.order pol s b c.lmax c.npsi mine
  let T1 ← todAnnulusR f o.A1 o.B1 o.C1 c.lmax c.npsi mine.length C.1
  let T2 ← todAnnulusR f o.A2 o.B2 o.C2 c.lmax c.npsi mine.length C.2
  ok ((List.range mine.length).map (pack c.nphi c.npsi T1), (List.range mine.length).map (pack c.nphi c.npsi T2))

end Verif.Num
