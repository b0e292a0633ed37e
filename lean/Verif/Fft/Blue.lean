import Verif.Fft.Model

/-! # Model of Bluestein's algorithm and of the complex plans -/

namespace Verif.Fft
open Verif Res

/-- Innermost loop of `good_size`, bluestein.c:63-64 (`f235*=5`); the first argument bounds the number of steps. -/
def gs5 (n : ℕ) : ℕ → ℕ → ℕ → Res ℕ
  | 0, _, _ => ub "loop bound"
  | f + 1, x, best => if x < best then gs5 n f (x * 5) (if x ≥ n then x else best) else ok best

/-- Middle loop, bluestein.c:62. -/
def gs3 (n : ℕ) : ℕ → ℕ → ℕ → Res ℕ
  | 0, _, _ => ub "loop bound"
  | f + 1, x, best => if x < best then do
      let b ← gs5 n (2 * n + 1) x best
      gs3 n f (x * 3) b
    else ok best

/-- Outer loop, bluestein.c:61. -/
def gs2 (n : ℕ) : ℕ → ℕ → ℕ → Res ℕ
  | 0, _, _ => ub "loop bound"
  | f + 1, x, best => if x < best then do
      let b ← gs3 n (2 * n + 1) x best
      gs2 n f (x * 2) b
    else ok best

/-- `good_size`, bluestein.c:56-66; `size_t` is unbounded here. -/
def goodSize (n : ℕ) : Res ℕ := if n ≤ 6 then ok n else gs2 n (2 * n + 1) 1 (2 * n)

/-- The storage of a Bluestein plan, bluestein.c:76-81, 114-120: `n2`, `bk` (`n` entries), `bkf` (`n2`), `work`, `akf` (`n2`). -/
structure BPlan where
  n2 : ℕ
  bk : List ℂ
  bkf : List ℂ
  work : Work
  akf : List ℂ

/-- `b_k`, bluestein.c:84-95. -/
noncomputable def initBk (n : ℕ) (bk : List ℂ) : Res (List ℂ) := do
  let bk ← wr bk 0 1
  let r ← forN (n - 1) (fun m0 (st : ℕ × List ℂ) => do
    let m := m0 + 1
    let coeff := st.1 + (2 * m - 1)
    let coeff := if coeff ≥ 2 * n then coeff - 2 * n else coeff
    let bk ← wr st.2 (m : ℤ) (cis (Real.pi / n * coeff))
    ok (coeff, bk)) (0, bk)
  ok r.2

/-- The zero-padded, normalised, symmetric `b_k`, bluestein.c:98-107. -/
noncomputable def initBkf (n n2 : ℕ) (bk bkf : List ℂ) : Res (List ℂ) := do
  let xn2 : ℂ := 1 / n2
  let b0 ← rd bk 0
  let bkf ← wr bkf 0 (b0 * xn2)
  let bkf ← forN (n - 1) (fun m0 bkf => do
    let b ← rd bk ((m0 + 1 : ℕ) : ℤ)
    let bkf ← wr bkf ((n2 : ℤ) - ((m0 + 1 : ℕ) : ℤ)) (b * xn2)
    wr bkf ((m0 + 1 : ℕ) : ℤ) (b * xn2)) bkf
  forN (n2 + 1 - 2 * n) (fun m0 bkf => wr bkf ((n + m0 : ℕ) : ℤ) 0) bkf

/-- `bluestein_i`, bluestein.c:68-110; `g` is the contents of freshly allocated memory. -/
noncomputable def bluesteinI (n : ℕ) (g : ℂ) : Res BPlan := do
  let n2 ← goodSize (n * 2 - 1)
  let bk ← initBk n (List.replicate n g)
  let bkf ← initBkf n n2 bk (List.replicate n2 g)
  let w ← cffti n2 g
  let r ← cfft false n2 bkf w
  ok ⟨n2, bk, r.1, r.2, List.replicate n2 g⟩

/-- `a_k`, bluestein.c:123-136. -/
noncomputable def initAk (back : Bool) (n n2 : ℕ) (data bk akf : List ℂ) : Res (List ℂ) := do
  let akf ← forN n (fun m akf => do
    let d ← rd data (m : ℤ)
    let b ← rd bk (m : ℤ)
    wr akf (m : ℤ) (mulpm back b d)) akf
  forN (n2 - n) (fun m0 akf => wr akf ((n + m0 : ℕ) : ℤ) 0) akf

/-- The convolution, bluestein.c:141-154. -/
noncomputable def convAk (back : Bool) (n2 : ℕ) (bkf akf : List ℂ) : Res (List ℂ) :=
  forN n2 (fun m akf => do
    let a ← rd akf (m : ℤ)
    let b ← rd bkf (m : ℤ)
    wr akf (m : ℤ) (mulpm (!back) b a)) akf

/-- The final multiplication, bluestein.c:161-172. -/
noncomputable def finish (back : Bool) (n : ℕ) (bk akf data : List ℂ) : Res (List ℂ) :=
  forN n (fun m data => do
    let b ← rd bk (m : ℤ)
    let a ← rd akf (m : ℤ)
    wr data (m : ℤ) (mulpm back b a)) data

/-- `bluestein`, bluestein.c:112-173: new data and storage. -/
noncomputable def bluestein (back : Bool) (n : ℕ) (data : List ℂ) (p : BPlan) : Res (List ℂ × BPlan) := do
  let a1 ← initAk back n p.n2 data p.bk p.akf
  let r2 ← cfft false p.n2 a1 p.work
  let a3 ← convAk back p.n2 p.bkf r2.1
  let r4 ← cfft true p.n2 a3 r2.2
  let d ← finish back n p.bk r4.1 data
  ok (d, { p with work := r4.2, akf := r4.1 })

/-! ## plans -/

/-- The first loop of `prime_factor_sum`, bluestein.c:39-40, with a bound on the number of steps: `(result, n)`. -/
def pfs2 : ℕ → ℕ → ℕ → Res (ℕ × ℕ)
  | 0, _, _ => ub "loop bound"
  | f + 1, res, n => if n / 2 * 2 = n then pfs2 f (res + 2) (n / 2) else ok (res, n)

/-- The inner loop over one divisor, bluestein.c:44-49 (`limit` is recomputed from `n` whenever `n` changes, :48). -/
def pfsX : ℕ → ℕ → ℕ → ℕ → Res (ℕ × ℕ)
  | 0, _, _, _ => ub "loop bound"
  | f + 1, x, res, n => if n / x * x = n then pfsX f x (res + x) (n / x) else ok (res, n)

/-- `(size_t)sqrt(n+0.01)`, bluestein.c:42, 48; exact arithmetic. -/
noncomputable def limitOf (n : ℕ) : ℕ := ⌊√((n : ℝ) + 1 / 100)⌋₊

/-- The loop over the odd divisors, bluestein.c:43-49.  `limit` always belongs to the current `n`. -/
noncomputable def pfsOuter : ℕ → ℕ → ℕ → ℕ → Res (ℕ × ℕ)
  | 0, _, _, _ => ub "loop bound"
  | f + 1, x, res, n => if x ≤ limitOf n then do
      let r ← pfsX (n + 1) x res n
      pfsOuter f (x + 2) r.1 r.2
    else ok (res, n)

/-- `prime_factor_sum`, bluestein.c:36-53; `fuel` bounds the number of halvings. -/
noncomputable def primeFactorSum (fuel n : ℕ) : Res ℕ := do
  let r ← pfs2 fuel 0 n
  let r ← pfsOuter (r.2 + 1) 3 r.1 r.2
  ok (if r.2 > 1 then r.1 + r.2 else r.1)

/-- The work space of `complex_plan_i`, ls_fft.h. -/
inductive PlanW where
  | pack (w : Work)
  | blue (p : BPlan)

/-- `complex_plan_i` -/
structure Plan where
  length : ℕ
  work : PlanW

/-- `make_complex_plan` after the choice of the algorithm, ls_fft.c:46-54. -/
noncomputable def makePlan (useBlue : Bool) (n : ℕ) (g : ℂ) : Res Plan :=
  if useBlue then do
    let b ← bluesteinI n g
    ok ⟨n, PlanW.blue b⟩
  else do
    let w ← cffti n g
    ok ⟨n, PlanW.pack w⟩

/-- `make_complex_plan`, ls_fft.c:37-55.  `cost` is the floating-point comparison `comp2<comp1`, a function of the length and
of the sum of its prime factors. -/
noncomputable def makeComplexPlan (cost : ℕ → ℕ → Bool) (n : ℕ) (g : ℂ) : Res Plan := do
  let pfsum ← primeFactorSum (n + 1) n
  makePlan (cost n pfsum) n g

/-- `complex_plan_forward`, `complex_plan_backward`, ls_fft.c:75-89. -/
noncomputable def Plan.exec (back : Bool) (p : Plan) (data : List ℂ) : Res (List ℂ × Plan) :=
  match p.work with
  | PlanW.blue b => do
    let r ← bluestein back p.length data b
    ok (r.1, { p with work := PlanW.blue r.2 })
  | PlanW.pack w => do
    let r ← cfft back p.length data w
    ok (r.1, { p with work := PlanW.pack r.2 })

/-- A sequence of calls of `cfft::forward` (`false`) and `cfft::backward` (`true`), ls_fftpack_support.h:74-85: the results. -/
noncomputable def Plan.runs (p : Plan) : List (Bool × List ℂ) → Res (List (List ℂ))
  | [] => ok []
  | q :: qs => do
    let r ← p.exec q.1 q.2
    let rs ← r.2.runs qs
    ok (r.1 :: rs)

end Verif.Fft
