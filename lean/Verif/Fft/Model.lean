import Verif.Base.Res
import Mathlib.Analysis.SpecialFunctions.Trigonometric.Basic
import Mathlib.Analysis.SpecialFunctions.Sqrt
import Mathlib.Analysis.SpecialFunctions.Complex.Log

/-!
# Model of the complex FFT of libfftpack

`factorize`, `cffti1`, `passb2 … passbg`, `passf2 … passfg`, `cfft1`, `cffti`, `cfftf`, `cfftb` (levels/libfftpack/fftpack.c,
fftpack_inc.c), `good_size`, `bluestein_i`, `bluestein` (bluestein.c) and the complex plans (ls_fft.c).

A buffer of `2n` doubles holding `n` complex numbers is a list of `n` complex numbers.  Arithmetic is exact; the decimal
constants of the code are replaced by the numbers they approximate.  Every access to `c`, `ch`, `wa`, `wal` and `ifac` is
checked.  `back` is the compile-time switch `BACKWARD` (run-time: `isign > 0`).
-/

namespace Verif.Fft
open Verif Res

/-- `CONJFLIPC`, fftpack.c:45 -/
noncomputable def conjflip (z : ℂ) : ℂ := ⟨-z.im, z.re⟩

/-- `MULPMSIGNC`, fftpack_inc.c:37, 42: `b*c` backward, `conj(b)*c` forward. -/
noncomputable def mulpm (back : Bool) (b c : ℂ) : ℂ :=
  if back then ⟨b.re * c.re - b.im * c.im, b.re * c.im + b.im * c.re⟩
  else ⟨b.re * c.re + b.im * c.im, b.re * c.im - b.im * c.re⟩

/-- `PSIGN x`, fftpack_inc.c:34, 39 -/
noncomputable def psign (back : Bool) (x : ℝ) : ℝ := if back then x else -x

/-! ## butterflies (bodies of the loops over `k`, `i`) -/

/-- fftpack_inc.c:51-60 -/
noncomputable def bf2 (v0 v1 : ℂ) : List ℂ := [v0 + v1, v0 - v1]

/-- fftpack_inc.c:67, 74-80 (86-94); `taui` is `0.866… = √3/2`. -/
noncomputable def bf3 (back : Bool) (v0 v1 v2 : ℂ) : List ℂ :=
  let taur : ℝ := -1 / 2
  let taui : ℝ := psign back (√3 / 2)
  let t2 := v1 + v2
  let c3 := v1 - v2
  let u0 := t2 + v0
  let t2 := (taur : ℂ) * t2
  let c2 := v0 + t2
  let c3 := (taui : ℂ) * c3
  let c3 := conjflip c3
  [u0, c2 + c3, c2 - c3]

/-- fftpack_inc.c:108-112 (118-122); `PMSIGNC` :35, :40 -/
noncomputable def bf4 (back : Bool) (v0 v1 v2 v3 : ℂ) : List ℂ :=
  let t2 := v0 + v2
  let t1 := v0 - v2
  let t3 := v1 + v3
  let t4 := v1 - v3
  let t4 := conjflip t4
  [t2 + t3, if back then t1 + t4 else t1 - t4, t2 - t3, if back then t1 - t4 else t1 + t4]

/-- fftpack_inc.c:133-136, 143-160 (165-182); `tr11 + i ti11`, `tr12 + i ti12` are the fifth roots of unity. -/
noncomputable def bf5 (back : Bool) (v0 v1 v2 v3 v4 : ℂ) : List ℂ :=
  let tr11 : ℝ := Real.cos (2 * Real.pi / 5)
  let ti11 : ℝ := psign back (Real.sin (2 * Real.pi / 5))
  let tr12 : ℝ := Real.cos (4 * Real.pi / 5)
  let ti12 : ℝ := psign back (Real.sin (4 * Real.pi / 5))
  let t2 := v1 + v4
  let t5 := v1 - v4
  let t3 := v2 + v3
  let t4 := v2 - v3
  let u0 := v0 + t2 + t3
  let c2 := v0 + tr11 * t2 + tr12 * t3
  let c3 := v0 + tr12 * t2 + tr11 * t3
  let c5 := ti11 * t5 + ti12 * t4
  let c4 := ti12 * t5 - ti11 * t4
  let c5 := conjflip c5
  let c4 := conjflip c4
  [u0, c2 + c5, c3 + c4, c3 - c4, c2 - c5]

/-- fftpack_inc.c:191, 198-214 (220-241) -/
noncomputable def bf6 (back : Bool) (v0 v1 v2 v3 v4 v5 : ℂ) : List ℂ :=
  let taui : ℝ := psign back (√3 / 2)
  let ta1 := v2 + v4
  let ta3 := v2 - v4
  let ta2 := v0 - (1 / 2) * ta1
  let ta3 := (taui : ℂ) * ta3
  let a0 := v0 + ta1
  let ta3 := conjflip ta3
  let a1 := ta2 + ta3
  let a2 := ta2 - ta3
  let tb1 := v5 + v1
  let tb3 := v5 - v1
  let tb2 := v3 - (1 / 2) * tb1
  let tb3 := (taui : ℂ) * tb3
  let b0 := v3 + tb1
  let tb3 := conjflip tb3
  let b1 := tb2 + tb3
  let b2 := tb2 - tb3
  [a0 + b0, a1 - b1, a2 + b2, a0 - b0, a1 + b1, a2 - b2]

/-- Dispatch of `cfft1` to the special radices, fftpack.c:621-638. -/
noncomputable def bf (back : Bool) : List ℂ → Res (List ℂ)
  | [a, b] => ok (bf2 a b)
  | [a, b, c] => ok (bf3 back a b c)
  | [a, b, c, d] => ok (bf4 back a b c d)
  | [a, b, c, d, e] => ok (bf5 back a b c d e)
  | [a, b, c, d, e, f] => ok (bf6 back a b c d e f)
  | _ => ub "no special pass for this radix"

/-- `for(j=1,jc=ip-1; j<ipph; ++j,--jc) { PMC (ccl[j],ccl[jc],CC(i,j,k),CC(i,jc,k)) ADDC (s,s,ccl[j]) }`,
fftpack_inc.c:259-265: the local array `ccl` and the sum `s`. -/
noncomputable def gSums (ip : ℕ) (v : List ℂ) : Res (List ℂ × ℂ) := do
  let v0 ← rd v 0
  let ccl ← wr (List.replicate ip 0) 0 v0
  forN ((ip + 1) / 2 - 1) (fun j0 (st : List ℂ × ℂ) => do
    let j : ℕ := j0 + 1
    let a ← rd v (j : ℤ)
    let b ← rd v ((ip - j : ℕ) : ℤ)
    let ccl ← wr st.1 (j : ℤ) (a + b)
    let ccl ← wr ccl ((ip - j : ℕ) : ℤ) (a - b)
    ok (ccl, st.2 + (a + b))) (ccl, v0)

/-- Inner loop over `l`, fftpack_inc.c:271-279: state `(iang, abr, abi)`.  `wal` holds `wal[1] … wal[ip-1]` (entry 0 of
the array is never set), so index 0 or `ip` is an error. -/
noncomputable def gInner (ip j : ℕ) (ccl wal : List ℂ) : Res (ℕ × ℂ × ℂ) := do
  let c0 ← rd ccl 0
  forN ((ip + 1) / 2 - 1) (fun l0 (st : ℕ × ℂ × ℂ) => do
    let l : ℕ := l0 + 1
    let iang := st.1 + j
    let iang := if iang > ip then iang - ip else iang
    let w ← rd wal ((iang : ℤ) - 1)
    let p ← rd ccl (l : ℤ)
    let q ← rd ccl ((ip - l : ℕ) : ℤ)
    ok (iang, st.2.1 + (w.re : ℂ) * p, st.2.2 + (w.im : ℂ) * q)) (0, c0, 0)

/-- The general butterfly, fftpack_inc.c:259-285, writing `CH(i,k,·)` (here a local list of `ip` values). -/
noncomputable def bfg (back : Bool) (ip : ℕ) (wal : List ℂ) (v : List ℂ) : Res (List ℂ) := do
  let g ← gSums ip v
  let out ← wr (List.replicate ip 0) 0 g.2
  forN ((ip + 1) / 2) (fun j0 out => do
    let j : ℕ := j0 + 1
    let r ← gInner ip j g.1 wal
    let abi := if back then r.2.2 else -r.2.2
    let abi := conjflip abi
    let out ← wr out (j : ℤ) (r.2.1 + abi)
    wr out ((ip - j : ℕ) : ℤ) (r.2.1 - abi)) out

/-! ## passes -/

/-- `CC(a,b,c)`, fftpack.c:40 -/
def ixC (ido cdim a b c : ℕ) : ℕ := a + ido * (b + cdim * c)
/-- `CH(a,b,c)`, fftpack.c:39 -/
def ixH (ido l1 a b c : ℕ) : ℕ := a + ido * (b + l1 * c)

/-- Reads `CC(i,0,k) … CC(i,ip-1,k)`. -/
noncomputable def readCol (ip ido i k : ℕ) (cc : List ℂ) : Res (List ℂ) :=
  (List.range ip).mapM (fun j : ℕ => rd cc (ixC ido ip i j k : ℤ))

/-- Writes `CH(i,k,j)` for `j = 0 … ip-1`; `tw` multiplies by `WA(j-1,i)` for `j ≥ 1`. -/
noncomputable def writeCol (back tw : Bool) (ip ido l1 i k : ℕ) (wa : List ℂ) (iw : ℕ) (u ch : List ℂ) : Res (List ℂ) :=
  forN ip (fun j ch => do
    let x ← rd u (j : ℤ)
    if tw && decide (j ≠ 0) then do
      let w ← rd wa ((iw + i + (j - 1) * ido : ℕ) : ℤ)
      wr ch (ixH ido l1 i k j : ℤ) (mulpm back w x)
    else wr ch (ixH ido l1 i k j : ℤ) x) ch

/-- `passb2 … passb6`, `passf2 … passf6`, fftpack_inc.c:45-243.  The routines differ in their butterfly only; twiddle
factors are applied unless `ido==1`. -/
noncomputable def passS (back : Bool) (ip ido l1 : ℕ) (wa : List ℂ) (iw : ℕ) (cc ch : List ℂ) : Res (List ℂ) :=
  forN l1 (fun k ch => forN ido (fun i ch => do
    let v ← readCol ip ido i k cc
    let u ← bf back v
    writeCol back (decide (ido ≠ 1)) ip ido l1 i k wa iw u ch) ch) ch

/-- The second part of `passbg`/`passfg`, fftpack_inc.c:292-301: `idij = (j-1)*ido + i`. -/
noncomputable def gTwiddle (back : Bool) (ip ido l1 : ℕ) (wa : List ℂ) (iw : ℕ) (ch : List ℂ) : Res (List ℂ) :=
  if ido = 1 then ok ch else
  forN (ip - 1) (fun j0 ch => forN l1 (fun k ch => forN (ido - 1) (fun i0 ch => do
    let t ← rd ch (ixH ido l1 (i0 + 1) k (j0 + 1) : ℤ)
    let w ← rd wa ((iw + (j0 * ido + (i0 + 1)) : ℕ) : ℤ)
    wr ch (ixH ido l1 (i0 + 1) k (j0 + 1) : ℤ) (mulpm back w t)) ch) ch) ch

/-- `passbg`, `passfg`, fftpack_inc.c:245-302. -/
noncomputable def passG (back : Bool) (ip ido l1 : ℕ) (wa : List ℂ) (iw : ℕ) (cc ch : List ℂ) : Res (List ℂ) := do
  let wal ← (List.range (ip - 1)).mapM (fun i : ℕ => rd wa ((iw + ido * i : ℕ) : ℤ))
  let ch ← forN l1 (fun k ch => forN ido (fun i ch => do
    let v ← readCol ip ido i k cc
    let u ← bfg back ip wal v
    writeCol back false ip ido l1 i k wa iw u ch) ch) ch
  gTwiddle back ip ido l1 wa iw ch

/-! ## cfft1 -/

/-- State of the loop of `cfft1`: `l1`, `iw` and the two buffers. -/
structure CS where
  l1 : ℕ
  iw : ℕ
  p1 : List ℂ
  p2 : List ℂ

/-- Choice of the pass, fftpack.c:621-638. -/
noncomputable def pass (back : Bool) (ip ido l1 : ℕ) (wa : List ℂ) (iw : ℕ) (cc ch : List ℂ) : Res (List ℂ) :=
  if 2 ≤ ip ∧ ip ≤ 6 then passS back ip ido l1 wa iw cc ch else passG back ip ido l1 wa iw cc ch

/-- Body of the loop of `cfft1`, fftpack.c:616-642 (after `SWAP`). -/
noncomputable def cfftStep (back : Bool) (n : ℕ) (wa : List ℂ) (s : CS) (ip : ℕ) : Res CS := do
  let l2 := ip * s.l1
  let ido := n / l2
  let r ← pass back ip ido s.l1 wa s.iw s.p1 s.p2
  ok ⟨l2, s.iw + (ip - 1) * ido, r, s.p1⟩

/-- `cfft1`, fftpack.c:610-645: the new contents of `c` and of the scratch buffer `ch`.  After an odd number of factors
`p1` is the scratch buffer and is copied to `c` (:644). -/
noncomputable def cfft1 (back : Bool) (n : ℕ) (c ch wa : List ℂ) (fac : List ℕ) : Res (List ℂ × List ℂ) := do
  let s ← foldRes (cfftStep back n wa) ⟨1, 0, c, ch⟩ fac
  ok (s.p1, if fac.length % 2 = 0 then s.p2 else s.p1)

/-! ## factorisation and tables -/

/-- The next trial divisor, fftpack.c:667, 691: `ntry = (j<=npf) ? pf[j-1] : ntry+2` with `pf = {4,6,3,2,5}` (`j` already
incremented). -/
def nextTry (j ntry : ℕ) : ℕ :=
  if j = 1 then 4 else if j = 2 then 6 else if j = 3 then 3 else if j = 4 then 2 else if j = 5 then 5 else ntry + 2

/-- Storing a factor, fftpack.c:674-682; the new factor 2 is moved to the front.  `ifac` has 15 entries, two of which are
used for `n` and `nf`. -/
def pushFac (fac : List ℕ) (ntry : ℕ) : Res (List ℕ) :=
  if fac.length + 1 > 13 then ub "ifac overflows the work array"
  else ok (if ntry = 2 ∧ fac ≠ [] then 2 :: fac else fac ++ [ntry])

/-- `factorize` from the `do` on, fftpack.c:665-686, with a bound on the number of steps. -/
def factLoop : ℕ → ℕ → ℕ → ℕ → List ℕ → Res (List ℕ)
  | 0, _, _, _, _ => ub "loop bound"
  | f + 1, j, ntry, nl, fac =>
    if nl % ntry ≠ 0 then factLoop f (j + 1) (nextTry (j + 1) ntry) nl fac
    else do
      let fac ← pushFac fac ntry
      if nl / ntry = 1 then ok fac else factLoop f j ntry (nl / ntry) fac

/-- `factorize (n,ntryh,5,ifac)`, fftpack.c:661-687 (`n ≥ 2`): the factors `ifac[2] … ifac[nf+1]`. -/
def factorize (n : ℕ) : Res (List ℕ) := factLoop (2 * n + 10) 1 4 n []

/-- `cos(arg) + i sin(arg)`, fftpack.c:710-713, `arg = fi*argld`, `argld = j*l1*argh`. -/
noncomputable def cis (a : ℝ) : ℂ := ⟨Real.cos a, Real.sin a⟩

/-- Body of the loop over `j` in `cffti1`, fftpack.c:702-720; `i` counts complex entries. -/
noncomputable def twRow (n ip ido l1 j : ℕ) (st : ℕ × List ℂ) : Res (ℕ × List ℂ) := do
  let is := st.1
  let argld : ℝ := j * l1 * (2 * Real.pi / n)
  let wa ← wr st.2 (is : ℤ) 1
  let wa ← forN ido (fun fi wa => wr wa ((is + (fi + 1) : ℕ) : ℤ) (cis (((fi + 1 : ℕ) : ℝ) * argld))) wa
  if ip > 6 then do
    let x ← rd wa ((is + ido : ℕ) : ℤ)
    let wa ← wr wa (is : ℤ) x
    ok (is + ido, wa)
  else ok (is + ido, wa)

/-- State of the loop over the factors in `cffti1`. -/
structure IS where
  l1 : ℕ
  i : ℕ
  wa : List ℂ

/-- Body of the loop over the factors, fftpack.c:698-722. -/
noncomputable def twStep (n : ℕ) (s : IS) (ip : ℕ) : Res IS := do
  let ido := n / (s.l1 * ip)
  let r ← forN (ip - 1) (fun j0 st => twRow n ip ido s.l1 (j0 + 1) st) (s.i, s.wa)
  ok ⟨s.l1 * ip, r.1, r.2⟩

/-- `cffti1`, fftpack.c:689-723: twiddle factors and factors; `wa0` is the uninitialised table of `n` entries. -/
noncomputable def cffti1 (n : ℕ) (wa0 : List ℂ) : Res (List ℂ × List ℕ) := do
  let fac ← factorize n
  let s ← foldRes (twStep n) ⟨1, 0, wa0⟩ fac
  ok (s.wa, fac)

/-- Work space of a transform: scratch buffer, table, factors. -/
structure Work where
  ch : List ℂ
  wa : List ℂ
  fac : List ℕ

/-- `cffti`, fftpack.c:725-726; `g` is the arbitrary contents of the freshly allocated memory. -/
noncomputable def cffti (n : ℕ) (g : ℂ) : Res Work :=
  if n ≠ 1 then do
    let r ← cffti1 n (List.replicate n g)
    ok ⟨List.replicate n g, r.1, r.2⟩
  else ok ⟨List.replicate n g, List.replicate n g, []⟩

/-- `cfftf` (`back = false`) and `cfftb` (`back = true`), fftpack.c:647-659: new data and work space. -/
noncomputable def cfft (back : Bool) (n : ℕ) (c : List ℂ) (w : Work) : Res (List ℂ × Work) :=
  if n ≠ 1 then do
    let r ← cfft1 back n c w.ch w.wa w.fac
    ok (r.1, { w with ch := r.2 })
  else ok (c, w)

end Verif.Fft
