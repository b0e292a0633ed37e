import Verif.Num.WignerProps
import Verif.Index.AlmProps
import Mathlib.Analysis.SpecialFunctions.Complex.Circle

/-!
# The harmonic kernel and the ring synthesis: model

`convolver::conviqt_hemiscm` (src/conviqt_math.cpp:643-806), `conviqt_hemiscm_pol` (:898-1066) without the latitude
tables and the exchange (modelled in `Tod/Cube.lean`), and `todAnnulus` (:1184-1274).
Exact arithmetic; `xcomplex<double>` is the pair `⟨re, im⟩ : ℂ`.  (The code forms the products of coefficients in
single precision.)  Profiling is not modelled.
-/

namespace Verif.Num
open Verif Res

/-! ## three-dimensional arrays -/

/-- `arr3<T>`, levels/cxxsupport/ls_arr.h; an access outside any of the three ranges is `ub`.  Elements are addressed
by index triples; that the linear layout keeps them apart is C46. -/
structure A3 (α : Type) where
  n1 : ℕ
  n2 : ℕ
  n3 : ℕ
  val : ℕ → ℕ → ℕ → α

variable {α : Type}

/-- Index check. -/
def A3.In (a : A3 α) (i j k : ℤ) : Prop := (0 ≤ i ∧ i < a.n1) ∧ (0 ≤ j ∧ j < a.n2) ∧ (0 ≤ k ∧ k < a.n3)

instance (a : A3 α) (i j k : ℤ) : Decidable (a.In i j k) := by unfold A3.In; infer_instance

/-- `a(i,j,k)` as rvalue -/
def rd3 (a : A3 α) (i j k : ℤ) : Res α := if a.In i j k then ok (a.val i.toNat j.toNat k.toNat) else ub "arr3 index"

/-- `a(i,j,k) = f (a(i,j,k))` -/
def upd3 (a : A3 α) (i j k : ℤ) (f : α → α) : Res (A3 α) :=
  if a.In i j k then ok { a with val := fun i' j' k' =>
    if i' = i.toNat ∧ j' = j.toNat ∧ k' = k.toNat then f (a.val i' j' k') else a.val i' j' k' }
  else ub "arr3 index"

/-- `alloc` and `fill(0.)`, src/conviqt_math.cpp:682-697 -/
def zero3 (n1 n2 n3 : ℕ) : A3 ℂ := ⟨n1, n2, n3, fun _ _ _ => 0⟩

/-- `for (x in the given order) f(x)` -/
def forL {β : Type} {σ : Type} (xs : List β) (f : β → σ → Res σ) (s : σ) : Res σ := foldRes (fun s x => f x s) s xs

/-! ## accumulation -/

/-- `xpow(m,v)`: levels/cxxsupport/ls_math_utils.h:92-94 -/
noncomputable def xpow (m : ℤ) (v : ℝ) : ℝ := if m % 2 = 1 then -v else v

/-- Expansions of sky or beam: temperature, gradient and curl parts (src/conviqt.hpp). -/
structure Exps where
  T : Harm.Alm ℂ
  G : Harm.Alm ℂ
  C : Harm.Alm ℂ

/-- `prod1 … prod4`; unpolarised src/conviqt_math.cpp:749-752, polarised :1009-1012 -/
noncomputable def prods (pol : Bool) (s b : Exps) (ii msky mbeam : ℤ) : Res (ℝ × ℝ × ℝ × ℝ) :=
  if pol then do
    let sT ← s.T.get ii msky; let sG ← s.G.get ii msky; let sC ← s.C.get ii msky
    let bT ← b.T.get ii mbeam; let bG ← b.G.get ii mbeam; let bC ← b.C.get ii mbeam
    ok (sT.re * bT.re + sG.re * bG.re + sC.re * bC.re, sT.im * bT.im + sG.im * bG.im + sC.im * bC.im,
        sT.im * bT.re + sG.im * bG.re + sC.im * bC.re, sT.re * bT.im + sG.re * bG.im + sC.re * bC.im)
  else do
    let sT ← s.T.get ii msky
    let bT ← b.T.get ii mbeam
    ok (sT.re * bT.re, sT.im * bT.im, sT.im * bT.re, sT.re * bT.im)

/-- State of the accumulation: `dlb` and the two cubes. -/
structure KS where
  dlb : ℝ
  C1 : A3 ℂ
  C2 : A3 ℂ

/-- `re += x; im += y` -/
noncomputable def incr (a : A3 ℂ) (i j k : ℤ) (x y : ℝ) : Res (A3 ℂ) := upd3 a i j k (fun c => ⟨c.re + x, c.im + y⟩)

/-- The part of the loop body for negative msky, src/conviqt_math.cpp:763-774 (1023-1034). -/
noncomputable def termNeg (lmax mbeam msky lat : ℤ) (dsign en en2 : ℝ) (p : ℝ × ℝ × ℝ × ℝ) (st : KS) : Res KS :=
  if msky ≠ 0 then do
    let tmp3 := dsign * (p.1 - p.2.1)
    let tmp4 := -dsign * (p.2.2.1 + p.2.2.2)
    let C1 ← incr st.C1 (-msky + lmax) mbeam lat (tmp3 * en) (tmp4 * en)
    let C2 ← incr st.C2 (-msky + lmax) mbeam lat (tmp3 * en2) (tmp4 * en2)
    ok { st with C1 := C1, C2 := C2 }
  else ok st

/-- Body of the loop over `ii`, src/conviqt_math.cpp:739-775 (995-1035). -/
noncomputable def term (pol : Bool) (s b : Exps) (lmax mbeam msky lat : ℤ) (dsign dsb : ℝ) (dmm dmmneg : List ℝ) (ii : ℤ)
    (st : KS) : Res KS := do
  let dlb := -st.dlb
  let d ← rd dmm ii
  let dn ← rd dmmneg ii
  let ep := dsb * d
  let en := dsb * dn
  let ep2 := dlb * en
  let en2 := dlb * ep
  let p ← prods pol s b ii msky mbeam
  let tmp1 := p.1 + p.2.1
  let tmp2 := p.2.2.1 - p.2.2.2
  let C1 ← incr st.C1 (msky + lmax) mbeam lat (tmp1 * ep) (tmp2 * ep)
  let C2 ← incr st.C2 (msky + lmax) mbeam lat (tmp1 * ep2) (tmp2 * ep2)
  termNeg lmax mbeam msky lat dsign en en2 p ⟨dlb, C1, C2⟩

/-- Generators of one thread with their result buffers, src/conviqt_math.cpp:707. -/
structure TS where
  g : Gen
  gneg : Gen
  buf : List ℝ
  bufneg : List ℝ

/-- Body of the loop over latitudes, src/conviqt_math.cpp:729-776 (985-1036). -/
noncomputable def latBody (pol : Bool) (s b : Exps) (lmax : ℕ) (mbeam msky : ℤ) (lat : ℕ) (q : TS × A3 ℂ × A3 ℂ) :
    Res (TS × A3 ℂ × A3 ℂ) := do
  let dsignb := xpow mbeam 1
  let dsign := xpow msky 1
  let dsb := dsign * dsignb
  let r ← wcalc q.1.g lat q.1.buf
  let rn ← wcalc q.1.gneg lat q.1.bufneg
  let firstl := max r.1 rn.1
  let dlb := -(xpow firstl dsignb)
  let st ← forN ((lmax : ℤ) + 1 - firstl).toNat
    (fun k st => term pol s b lmax mbeam msky lat dsign dsb r.2 rn.2 (firstl + k) st) ⟨dlb, q.2.1, q.2.2⟩
  ok ({ q.1 with buf := r.2, bufneg := rn.2 }, st.C1, st.C2)

/-- Body of the loop over `msky`, src/conviqt_math.cpp:716-777, executed by a thread in state `q.1`. -/
noncomputable def mskyBody (ovf : Res ℤ) (pol : Bool) (s b : Exps) (lmax nlat : ℕ) (mbeam msky : ℕ) (q : TS × A3 ℂ × A3 ℂ) :
    Res (TS × A3 ℂ × A3 ℂ) := do
  let g ← prepare ovf q.1.g mbeam msky
  let gneg ← prepare ovf q.1.gneg mbeam (-msky)
  forN nlat (fun lat q => latBody pol s b lmax mbeam msky lat q) ({ q.1 with g := g, gneg := gneg }, q.2)

/-- State of the parallel region: every thread's generators and the shared cubes. -/
structure PS where
  thr : ℕ → TS
  C1 : A3 ℂ
  C2 : A3 ℂ

/-- An OpenMP schedule: for every mbeam the order in which the iterations over msky run and the thread of each. -/
structure Sched where
  order : ℕ → List ℕ
  thread : ℕ → ℕ → ℕ

/-- The parallel region, src/conviqt_math.cpp:704-778 (960-1038): construction of the generators and the accumulation. -/
noncomputable def accumulate (ovf : Res ℤ) (sc : Sched) (pol : Bool) (s b : Exps) (lmax npsi : ℕ) (thetas : List ℝ) (acc : ℝ) :
    Res (A3 ℂ × A3 ℂ) := do
  let g ← mkGen lmax thetas acc
  let ts : TS := ⟨g, g, List.replicate (lmax + 1) 0, List.replicate (lmax + 1) 0⟩
  let z := zero3 (2 * lmax + 1) npsi thetas.length
  let st ← forL (List.range npsi) (fun mbeam st =>
    forL (sc.order mbeam) (fun msky (st : PS) => do
      let q ← mskyBody ovf pol s b lmax thetas.length mbeam msky (st.thr (sc.thread mbeam msky), st.C1, st.C2)
      ok ⟨Function.update st.thr (sc.thread mbeam msky) q.1, q.2.1, q.2.2⟩) st) (PS.mk (fun _ => ts) z z)
  ok (st.C1, st.C2)

/-! ## ring synthesis -/

/-- `cs`, `sn`, src/conviqt_math.cpp:783-786 (1043-1046): entry `ii` is for `msky = ii - lmax`. -/
noncomputable def csTab (lmax : ℕ) : List ℝ := (List.range (2 * lmax + 1)).map (fun ii : ℕ => Real.cos (-(Real.pi / 2) * ((ii : ℝ) - lmax)))
noncomputable def snTab (lmax : ℕ) : List ℝ := (List.range (2 * lmax + 1)).map (fun ii : ℕ => Real.sin (-(Real.pi / 2) * ((ii : ℝ) - lmax)))

/-- `cs0`, `sn0`, src/conviqt_math.cpp:780, 787-789 (1040, 1047-1049) -/
noncomputable def cs0Tab (lmax : ℕ) : List ℝ :=
  (List.range (2 * lmax + 1)).map (fun ii : ℕ => Real.cos (ii * (2 * Real.pi * lmax / (2 * lmax + 1))))
noncomputable def sn0Tab (lmax : ℕ) : List ℝ :=
  (List.range (2 * lmax + 1)).map (fun ii : ℕ => Real.sin (ii * (2 * Real.pi * lmax / (2 * lmax + 1))))

/-- `R = c*R + s*I; I = c*I - s*R` -/
noncomputable def rot (c s : ℝ) (z : ℂ) : ℂ := ⟨c * z.re + s * z.im, c * z.im - s * z.re⟩

/-- First loop of `todAnnulus`, src/conviqt_math.cpp:1202-1220. -/
noncomputable def annulusA (order : List ℕ) (lmax npsi nlat : ℕ) (C : A3 ℂ) : Res (A3 ℂ) :=
  forL order (fun ii C => do
    let cos1 ← rd (csTab lmax) ii
    let sin1 ← rd (snTab lmax) ii
    forL (List.range npsi) (fun mbeam C =>
      forL (List.range nlat) (fun lat C => upd3 C ii mbeam lat (rot cos1 sin1)) C) C) C

/-- Second loop of `todAnnulus`, src/conviqt_math.cpp:1222-1234; `fft` is `cfft::backward` for length `nphi`. -/
noncomputable def annulusB (order : List ℕ) (fft : List ℂ → List ℂ) (lmax nlat : ℕ) (C tod : A3 ℂ) : Res (A3 ℂ) :=
  forL order (fun mbeam tod =>
    forL (List.range nlat) (fun lat tod => do
      let c ← (List.range (2 * lmax + 1)).mapM (fun ii : ℕ => rd3 C ii mbeam lat)
      let t := fft c
      forL (List.range (2 * lmax + 1)) (fun k tod => do
        let x ← rd t k
        upd3 tod k mbeam lat (fun _ => x)) tod) tod) tod

/-- Third loop of `todAnnulus`, src/conviqt_math.cpp:1236-1263. -/
noncomputable def annulusC (order : List ℕ) (lmax npsi nlat : ℕ) (tod : A3 ℂ) : Res (A3 ℂ) :=
  forL order (fun ii tod => do
    let cos0 ← rd (cs0Tab lmax) ii
    let sin0 ← rd (sn0Tab lmax) ii
    forL (List.range npsi) (fun mbeam tod => do
      let cos1 ← rd (csTab lmax) ((mbeam : ℤ) + lmax)
      let sin1 ← rd (snTab lmax) ((mbeam : ℤ) + lmax)
      forL (List.range nlat) (fun lat tod => upd3 tod ii mbeam lat (fun z => rot cos1 sin1 (rot cos0 sin0 z))) tod) tod) tod

/-- `todAnnulus`, src/conviqt_math.cpp:1184-1274; `oA oB oC` are the orders in which the three parallel loops run. -/
noncomputable def todAnnulus (oA oB oC : List ℕ) (fft : List ℂ → List ℂ) (lmax npsi nlat : ℕ) (C : A3 ℂ) : Res (A3 ℂ) := do
  let C ← annulusA oA lmax npsi nlat C
  let tod ← annulusB oB fft lmax nlat C (zero3 (2 * lmax + 1) npsi nlat)
  annulusC oC lmax npsi nlat tod

end Verif.Num
