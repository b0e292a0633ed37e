import Verif.Fft.Blue

/-!
# The complex FFT of libfftpack in floating point: model

The same functions as in `Fft/Model.lean` and `Fft/Blue.lean` with every operation rounded, in the order in which the code performs them.
Negations and multiplications by the signs are exact; integers converted to `double` are exact; exponents are unbounded; no operations are fused.
`cos`, `sin` and the stored decimal constants are parameters.
-/

namespace Verif.Fft
open Verif Res

/-- Arithmetic, libm and the constants of the code (`0.866…` fftpack_inc.c:67, 191; fifth roots of unity :133-136; `twopi` fftpack.c:692;
`pi` bluestein.c:70). -/
structure FA where
  rb : ℝ → ℝ
  cosF : ℝ → ℝ
  sinF : ℝ → ℝ
  s3 : ℝ
  c51 : ℝ
  s51 : ℝ
  c52 : ℝ
  s52 : ℝ
  twopi : ℝ
  pi : ℝ

/-- Both parts of a complex number rounded. -/
noncomputable def FA.rc (f : FA) (z : ℂ) : ℂ := ⟨f.rb z.re, f.rb z.im⟩
/-- `a.r=b.r+c.r; a.i=b.i+c.i` (`ADDC`, `PMC`), fftpack.c:42-43 -/
noncomputable def FA.add (f : FA) (a b : ℂ) : ℂ := f.rc (a + b)
/-- `b.r=c.r-d.r; b.i=c.i-d.i` (`PMC`), fftpack.c:42 -/
noncomputable def FA.sub (f : FA) (a b : ℂ) : ℂ := f.rc (a - b)
/-- `SCALEC`, fftpack.c:44 -/
noncomputable def FA.scl (f : FA) (x : ℝ) (z : ℂ) : ℂ := f.rc ((x : ℂ) * z)
/-- `MULPMSIGNC`, fftpack_inc.c:37, 42 -/
noncomputable def FA.mul (f : FA) (back : Bool) (b c : ℂ) : ℂ :=
  if back then ⟨f.rb (f.rb (b.re * c.re) - f.rb (b.im * c.im)), f.rb (f.rb (b.re * c.im) + f.rb (b.im * c.re))⟩
  else ⟨f.rb (f.rb (b.re * c.re) + f.rb (b.im * c.im)), f.rb (f.rb (b.re * c.im) - f.rb (b.im * c.re))⟩

/-! ## butterflies -/

/-- fftpack_inc.c:51-60 -/
noncomputable def bf2R (f : FA) (v0 v1 : ℂ) : List ℂ := [f.add v0 v1, f.sub v0 v1]

/-- fftpack_inc.c:67, 74-80 (86-94) -/
noncomputable def bf3R (f : FA) (back : Bool) (v0 v1 v2 : ℂ) : List ℂ :=
  let taur : ℝ := -1 / 2
  let taui : ℝ := psign back f.s3
  let t2 := f.add v1 v2
  let c3 := f.sub v1 v2
  let u0 := f.add t2 v0
  let t2 := f.scl taur t2
  let c2 := f.add v0 t2
  let c3 := f.scl taui c3
  let c3 := conjflip c3
  [u0, f.add c2 c3, f.sub c2 c3]

/-- fftpack_inc.c:108-112 (118-122); `PMSIGNC` :35, :40 -/
noncomputable def bf4R (f : FA) (back : Bool) (v0 v1 v2 v3 : ℂ) : List ℂ :=
  let t2 := f.add v0 v2
  let t1 := f.sub v0 v2
  let t3 := f.add v1 v3
  let t4 := f.sub v1 v3
  let t4 := conjflip t4
  [f.add t2 t3, if back then f.add t1 t4 else f.sub t1 t4, f.sub t2 t3, if back then f.sub t1 t4 else f.add t1 t4]

/-- fftpack_inc.c:133-136, 143-160 (165-182) -/
noncomputable def bf5R (f : FA) (back : Bool) (v0 v1 v2 v3 v4 : ℂ) : List ℂ :=
  let tr11 : ℝ := f.c51
  let ti11 : ℝ := psign back f.s51
  let tr12 : ℝ := f.c52
  let ti12 : ℝ := psign back f.s52
  let t2 := f.add v1 v4
  let t5 := f.sub v1 v4
  let t3 := f.add v2 v3
  let t4 := f.sub v2 v3
  let u0 := f.add (f.add v0 t2) t3
  let c2 := f.add (f.add v0 (f.scl tr11 t2)) (f.scl tr12 t3)
  let c3 := f.add (f.add v0 (f.scl tr12 t2)) (f.scl tr11 t3)
  let c5 := f.add (f.scl ti11 t5) (f.scl ti12 t4)
  let c4 := f.sub (f.scl ti12 t5) (f.scl ti11 t4)
  let c5 := conjflip c5
  let c4 := conjflip c4
  [u0, f.add c2 c5, f.add c3 c4, f.sub c3 c4, f.sub c2 c5]

/-- fftpack_inc.c:191, 198-214 (220-241) -/
noncomputable def bf6R (f : FA) (back : Bool) (v0 v1 v2 v3 v4 v5 : ℂ) : List ℂ :=
  let taui : ℝ := psign back f.s3
  let ta1 := f.add v2 v4
  let ta3 := f.sub v2 v4
  let ta2 := f.sub v0 (f.scl (1 / 2) ta1)
  let ta3 := f.scl taui ta3
  let a0 := f.add v0 ta1
  let ta3 := conjflip ta3
  let a1 := f.add ta2 ta3
  let a2 := f.sub ta2 ta3
  let tb1 := f.add v5 v1
  let tb3 := f.sub v5 v1
  let tb2 := f.sub v3 (f.scl (1 / 2) tb1)
  let tb3 := f.scl taui tb3
  let b0 := f.add v3 tb1
  let tb3 := conjflip tb3
  let b1 := f.add tb2 tb3
  let b2 := f.sub tb2 tb3
  [f.add a0 b0, f.sub a1 b1, f.add a2 b2, f.sub a0 b0, f.add a1 b1, f.sub a2 b2]

/-- Dispatch of `cfft1` to the special radices, fftpack.c:621-638. -/
noncomputable def bfR (f : FA) (back : Bool) : List ℂ → Res (List ℂ)
  | [a, b] => ok (bf2R f a b)
  | [a, b, c] => ok (bf3R f back a b c)
  | [a, b, c, d] => ok (bf4R f back a b c d)
  | [a, b, c, d, e] => ok (bf5R f back a b c d e)
  | [a, b, c, d, e, g] => ok (bf6R f back a b c d e g)
  | _ => ub "no special pass for this radix"

/-- fftpack_inc.c:259-265 -/
noncomputable def gSumsR (f : FA) (ip : ℕ) (v : List ℂ) : Res (List ℂ × ℂ) := do
  let v0 ← rd v 0
  let ccl ← wr (List.replicate ip 0) 0 v0
  forN ((ip + 1) / 2 - 1) (fun j0 (st : List ℂ × ℂ) => do
    let j : ℕ := j0 + 1
    let a ← rd v (j : ℤ)
    let b ← rd v ((ip - j : ℕ) : ℤ)
    let ccl ← wr st.1 (j : ℤ) (f.add a b)
    let ccl ← wr ccl ((ip - j : ℕ) : ℤ) (f.sub a b)
    ok (ccl, f.add st.2 (f.add a b))) (ccl, v0)

/-- fftpack_inc.c:271-279 -/
noncomputable def gInnerR (f : FA) (ip j : ℕ) (ccl wal : List ℂ) : Res (ℕ × ℂ × ℂ) := do
  let c0 ← rd ccl 0
  forN ((ip + 1) / 2 - 1) (fun l0 (st : ℕ × ℂ × ℂ) => do
    let l : ℕ := l0 + 1
    let iang := st.1 + j
    let iang := if iang > ip then iang - ip else iang
    let w ← rd wal ((iang : ℤ) - 1)
    let p ← rd ccl (l : ℤ)
    let q ← rd ccl ((ip - l : ℕ) : ℤ)
    ok (iang, f.add st.2.1 (f.scl w.re p), f.add st.2.2 (f.scl w.im q))) (0, c0, 0)

/-- fftpack_inc.c:259-285 -/
noncomputable def bfgR (f : FA) (back : Bool) (ip : ℕ) (wal : List ℂ) (v : List ℂ) : Res (List ℂ) := do
  let g ← gSumsR f ip v
  let out ← wr (List.replicate ip 0) 0 g.2
  forN ((ip + 1) / 2) (fun j0 out => do
    let j : ℕ := j0 + 1
    let r ← gInnerR f ip j g.1 wal
    let abi := if back then r.2.2 else -r.2.2
    let abi := conjflip abi
    let out ← wr out (j : ℤ) (f.add r.2.1 abi)
    wr out ((ip - j : ℕ) : ℤ) (f.sub r.2.1 abi)) out

/-! ## passes -/

/-- As `writeCol`. -/
noncomputable def writeColR (f : FA) (back tw : Bool) (ip ido l1 i k : ℕ) (wa : List ℂ) (iw : ℕ) (u ch : List ℂ) : Res (List ℂ) :=
  forN ip (fun j ch => do
    let x ← rd u (j : ℤ)
    if tw && decide (j ≠ 0) then do
      let w ← rd wa ((iw + i + (j - 1) * ido : ℕ) : ℤ)
      wr ch (ixH ido l1 i k j : ℤ) (f.mul back w x)
    else wr ch (ixH ido l1 i k j : ℤ) x) ch

/-- `passb2 … passb6`, `passf2 … passf6`, fftpack_inc.c:45-243. -/
noncomputable def passSR (f : FA) (back : Bool) (ip ido l1 : ℕ) (wa : List ℂ) (iw : ℕ) (cc ch : List ℂ) : Res (List ℂ) :=
  forN l1 (fun k ch => forN ido (fun i ch => do
    let v ← readCol ip ido i k cc
    let u ← bfR f back v
    writeColR f back (decide (ido ≠ 1)) ip ido l1 i k wa iw u ch) ch) ch

/-- fftpack_inc.c:292-301 -/
noncomputable def gTwiddleR (f : FA) (back : Bool) (ip ido l1 : ℕ) (wa : List ℂ) (iw : ℕ) (ch : List ℂ) : Res (List ℂ) :=
  if ido = 1 then ok ch else
  forN (ip - 1) (fun j0 ch => forN l1 (fun k ch => forN (ido - 1) (fun i0 ch => do
    let t ← rd ch (ixH ido l1 (i0 + 1) k (j0 + 1) : ℤ)
    let w ← rd wa ((iw + (j0 * ido + (i0 + 1)) : ℕ) : ℤ)
    wr ch (ixH ido l1 (i0 + 1) k (j0 + 1) : ℤ) (f.mul back w t)) ch) ch) ch

/-- `passbg`, `passfg`, fftpack_inc.c:245-302. -/
noncomputable def passGR (f : FA) (back : Bool) (ip ido l1 : ℕ) (wa : List ℂ) (iw : ℕ) (cc ch : List ℂ) : Res (List ℂ) := do
  let wal ← (List.range (ip - 1)).mapM (fun i : ℕ => rd wa ((iw + ido * i : ℕ) : ℤ))
  let ch ← forN l1 (fun k ch => forN ido (fun i ch => do
    let v ← readCol ip ido i k cc
    let u ← bfgR f back ip wal v
    writeColR f back false ip ido l1 i k wa iw u ch) ch) ch
  gTwiddleR f back ip ido l1 wa iw ch

/-! ## cfft1 -/

/-- fftpack.c:621-638 -/
noncomputable def passR (f : FA) (back : Bool) (ip ido l1 : ℕ) (wa : List ℂ) (iw : ℕ) (cc ch : List ℂ) : Res (List ℂ) :=
  if 2 ≤ ip ∧ ip ≤ 6 then passSR f back ip ido l1 wa iw cc ch else passGR f back ip ido l1 wa iw cc ch

/-- fftpack.c:616-642 -/
noncomputable def cfftStepR (f : FA) (back : Bool) (n : ℕ) (wa : List ℂ) (s : CS) (ip : ℕ) : Res CS := do
  let l2 := ip * s.l1
  let ido := n / l2
  let r ← passR f back ip ido s.l1 wa s.iw s.p1 s.p2
  ok ⟨l2, s.iw + (ip - 1) * ido, r, s.p1⟩

/-- `cfft1`, fftpack.c:610-645 -/
noncomputable def cfft1R (f : FA) (back : Bool) (n : ℕ) (c ch wa : List ℂ) (fac : List ℕ) : Res (List ℂ × List ℂ) := do
  let s ← foldRes (cfftStepR f back n wa) ⟨1, 0, c, ch⟩ fac
  ok (s.p1, if fac.length % 2 = 0 then s.p2 else s.p1)

/-! ## tables -/

/-- `cos(arg)`, `sin(arg)` as stored. -/
noncomputable def FA.cis (f : FA) (a : ℝ) : ℂ := ⟨f.cosF a, f.sinF a⟩

/-- `arg=fi*argld`, `argld=j*l1*argh`, `argh=twopi/n`, fftpack.c:695, 705, 710 (`j*l1` is an integer). -/
noncomputable def FA.arg (f : FA) (n l1 j fi : ℕ) : ℝ := f.rb ((fi : ℝ) * f.rb (((j * l1 : ℕ) : ℝ) * f.rb (f.twopi / n)))

/-- Body of the loop over `j` in `cffti1`, fftpack.c:702-720. -/
noncomputable def twRowR (f : FA) (n ip ido l1 j : ℕ) (st : ℕ × List ℂ) : Res (ℕ × List ℂ) := do
  let is := st.1
  let wa ← wr st.2 (is : ℤ) 1
  let wa ← forN ido (fun fi wa => wr wa ((is + (fi + 1) : ℕ) : ℤ) (f.cis (f.arg n l1 j (fi + 1)))) wa
  if ip > 6 then do
    let x ← rd wa ((is + ido : ℕ) : ℤ)
    let wa ← wr wa (is : ℤ) x
    ok (is + ido, wa)
  else ok (is + ido, wa)

/-- fftpack.c:698-722 -/
noncomputable def twStepR (f : FA) (n : ℕ) (s : IS) (ip : ℕ) : Res IS := do
  let ido := n / (s.l1 * ip)
  let r ← forN (ip - 1) (fun j0 st => twRowR f n ip ido s.l1 (j0 + 1) st) (s.i, s.wa)
  ok ⟨s.l1 * ip, r.1, r.2⟩

/-- `cffti1`, fftpack.c:689-723 -/
noncomputable def cffti1R (f : FA) (n : ℕ) (wa0 : List ℂ) : Res (List ℂ × List ℕ) := do
  let fac ← factorize n
  let s ← foldRes (twStepR f n) ⟨1, 0, wa0⟩ fac
  ok (s.wa, fac)

/-- `cffti`, fftpack.c:725-726 -/
noncomputable def cfftiR (f : FA) (n : ℕ) (g : ℂ) : Res Work :=
  if n ≠ 1 then do
    let r ← cffti1R f n (List.replicate n g)
    ok ⟨List.replicate n g, r.1, r.2⟩
  else ok ⟨List.replicate n g, List.replicate n g, []⟩

/-- `cfftf`, `cfftb`, fftpack.c:647-659 -/
noncomputable def cfftR (f : FA) (back : Bool) (n : ℕ) (c : List ℂ) (w : Work) : Res (List ℂ × Work) :=
  if n ≠ 1 then do
    let r ← cfft1R f back n c w.ch w.wa w.fac
    ok (r.1, { w with ch := r.2 })
  else ok (c, w)

/-! ## Bluestein -/

/-- `b_k`, bluestein.c:84-95: `angle = pibyn*coeff`, `pibyn=pi/n`. -/
noncomputable def initBkR (f : FA) (n : ℕ) (bk : List ℂ) : Res (List ℂ) := do
  let bk ← wr bk 0 1
  let r ← forN (n - 1) (fun m0 (st : ℕ × List ℂ) => do
    let m := m0 + 1
    let coeff := st.1 + (2 * m - 1)
    let coeff := if coeff ≥ 2 * n then coeff - 2 * n else coeff
    let bk ← wr st.2 (m : ℤ) (f.cis (f.rb (f.rb (f.pi / n) * coeff)))
    ok (coeff, bk)) (0, bk)
  ok r.2

/-- bluestein.c:98-107 -/
noncomputable def initBkfR (f : FA) (n n2 : ℕ) (bk bkf : List ℂ) : Res (List ℂ) := do
  let xn2 : ℝ := f.rb (1 / n2)
  let b0 ← rd bk 0
  let bkf ← wr bkf 0 (f.scl xn2 b0)
  let bkf ← forN (n - 1) (fun m0 bkf => do
    let b ← rd bk ((m0 + 1 : ℕ) : ℤ)
    let bkf ← wr bkf ((n2 : ℤ) - ((m0 + 1 : ℕ) : ℤ)) (f.scl xn2 b)
    wr bkf ((m0 + 1 : ℕ) : ℤ) (f.scl xn2 b)) bkf
  forN (n2 + 1 - 2 * n) (fun m0 bkf => wr bkf ((n + m0 : ℕ) : ℤ) 0) bkf

/-- `bluestein_i`, bluestein.c:68-110 -/
noncomputable def bluesteinIR (f : FA) (n : ℕ) (g : ℂ) : Res BPlan := do
  let n2 ← goodSize (n * 2 - 1)
  let bk ← initBkR f n (List.replicate n g)
  let bkf ← initBkfR f n n2 bk (List.replicate n2 g)
  let w ← cfftiR f n2 g
  let r ← cfftR f false n2 bkf w
  ok ⟨n2, bk, r.1, r.2, List.replicate n2 g⟩

/-- bluestein.c:123-136 -/
noncomputable def initAkR (f : FA) (back : Bool) (n n2 : ℕ) (data bk akf : List ℂ) : Res (List ℂ) := do
  let akf ← forN n (fun m akf => do
    let d ← rd data (m : ℤ)
    let b ← rd bk (m : ℤ)
    wr akf (m : ℤ) (f.mul back b d)) akf
  forN (n2 - n) (fun m0 akf => wr akf ((n + m0 : ℕ) : ℤ) 0) akf

/-- bluestein.c:141-154 -/
noncomputable def convAkR (f : FA) (back : Bool) (n2 : ℕ) (bkf akf : List ℂ) : Res (List ℂ) :=
  forN n2 (fun m akf => do
    let a ← rd akf (m : ℤ)
    let b ← rd bkf (m : ℤ)
    wr akf (m : ℤ) (f.mul (!back) b a)) akf

/-- bluestein.c:161-172 -/
noncomputable def finishR (f : FA) (back : Bool) (n : ℕ) (bk akf data : List ℂ) : Res (List ℂ) :=
  forN n (fun m data => do
    let b ← rd bk (m : ℤ)
    let a ← rd akf (m : ℤ)
    wr data (m : ℤ) (f.mul back b a)) data

/-- `bluestein`, bluestein.c:112-173 -/
noncomputable def bluesteinR (f : FA) (back : Bool) (n : ℕ) (data : List ℂ) (p : BPlan) : Res (List ℂ × BPlan) := do
  let a1 ← initAkR f back n p.n2 data p.bk p.akf
  let r2 ← cfftR f false p.n2 a1 p.work
  let a3 ← convAkR f back p.n2 p.bkf r2.1
  let r4 ← cfftR f true p.n2 a3 r2.2
  let d ← finishR f back n p.bk r4.1 data
  ok (d, { p with work := r4.2, akf := r4.1 })

/-! ## plans -/

/-- ls_fft.c:46-54 -/
noncomputable def makePlanR (f : FA) (useBlue : Bool) (n : ℕ) (g : ℂ) : Res Plan :=
  if useBlue then do
    let b ← bluesteinIR f n g
    ok ⟨n, PlanW.blue b⟩
  else do
    let w ← cfftiR f n g
    ok ⟨n, PlanW.pack w⟩

/-- `make_complex_plan`, ls_fft.c:37-55; `cost` is the floating-point comparison `comp2<comp1`. -/
noncomputable def makeComplexPlanR (f : FA) (cost : ℕ → ℕ → Bool) (n : ℕ) (g : ℂ) : Res Plan := do
  let pfsum ← primeFactorSum (n + 1) n
  makePlanR f (cost n pfsum) n g

/-- `complex_plan_forward`, `complex_plan_backward`, ls_fft.c:75-89. -/
noncomputable def Plan.execR (f : FA) (back : Bool) (p : Plan) (data : List ℂ) : Res (List ℂ × Plan) :=
  match p.work with
  | PlanW.blue b => do
    let r ← bluesteinR f back p.length data b
    ok (r.1, { p with work := PlanW.blue r.2 })
  | PlanW.pack w => do
    let r ← cfftR f back p.length data w
    ok (r.1, { p with work := PlanW.pack r.2 })

/-- A sequence of calls of `cfft::forward` (`false`) and `cfft::backward` (`true`), ls_fftpack_support.h:74-85: the results. -/
noncomputable def Plan.runsR (f : FA) (p : Plan) : List (Bool × List ℂ) → Res (List (List ℂ))
  | [] => ok []
  | q :: qs => do
    let r ← p.execR f q.1 q.2
    let rs ← r.2.runsR f qs
    ok (r.1 :: rs)

end Verif.Fft
