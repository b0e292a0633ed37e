import Verif.Fft.Main

/-!
# C83: real transforms

The plans for real data of levels/libfftpack/ls_fft.c: storage formats and data movement, in place.  The two algorithms a plan can
use enter as parameters: Bluestein's (verified for C41) and `rfftf`/`rfftb` (fftpack.c, not modelled; their contract is a hypothesis).
Arithmetic is exact.
-/

namespace Verif.Fft
open Verif Res Finset

/-- The discrete Fourier transform of `x`, entry `k`. -/
noncomputable def dftEntry (back : Bool) (n : ℕ) (x : ℕ → ℂ) (k : ℕ) : ℂ := ∑ j ∈ range n, x j * zeta n (sg back * (k * j))

/-! ## model -/

/-- A plan for real data, levels/libfftpack/ls_fft.h:60-70: length, algorithm, and the algorithms. -/
structure RPlan where
  n : ℕ
  blue : Bool
  /-- `bluestein(length, data, work, ±1)` on complex numbers -/
  bs : Bool → List ℂ → Res (List ℂ)
  /-- `rfftf(length, data, work)` -/
  rf : List ℝ → Res (List ℝ)
  /-- `rfftb(length, data, work)` -/
  rb : List ℝ → Res (List ℝ)

/-- The first `2n` doubles of a buffer as `n` complex numbers. -/
def cpx (n : ℕ) (data : List ℝ) : List ℂ := (List.range n).map (fun k => ⟨data.getD (2 * k) 0, data.getD (2 * k + 1) 0⟩)

/-- `bluestein` on a buffer of doubles: the first `2n` are replaced. -/
def blueOn (p : RPlan) (back : Bool) (data : List ℝ) : Res (List ℝ) :=
  if 2 * p.n ≤ data.length then do
    let r ← p.bs back (cpx p.n data)
    ok ((List.range data.length).map (fun j =>
      if j < 2 * p.n then (if j % 2 = 0 then (r.getD (j / 2) 0).re else (r.getD (j / 2) 0).im) else data.getD j 0))
  else ub "out of bounds"

/-- `rfftf` or `rfftb` on `n` doubles from position `off`. -/
def realOn (f : List ℝ → Res (List ℝ)) (n off : ℕ) (data : List ℝ) : Res (List ℝ) :=
  if off + n ≤ data.length then do
    let r ← f ((data.drop off).take n)
    ok ((List.range data.length).map (fun j => if off ≤ j ∧ j < off + n then r.getD (j - off) 0 else data.getD j 0))
  else ub "out of bounds"

/-- `memcpy(dst + d, src + s, len * sizeof(double))` between different buffers. -/
def copyTo (dst : List ℝ) (d : ℕ) (src : List ℝ) (s len : ℕ) : Res (List ℝ) :=
  if d + len ≤ dst.length ∧ s + len ≤ src.length then
    ok ((List.range dst.length).map (fun j => if d ≤ j ∧ j < d + len then src.getD (s + (j - d)) 0 else dst.getD j 0))
  else ub "out of bounds"

/-- Freshly allocated memory. -/
def fresh (junk : ℕ → ℝ) (n : ℕ) : List ℝ := (List.range n).map junk

/-- `real_plan_forward_fftpack`, levels/libfftpack/ls_fft.c:130-149. -/
def forwardFftpack (p : RPlan) (junk : ℕ → ℝ) (data : List ℝ) : Res (List ℝ) :=
  if p.blue then do
    let tmp ← forN p.n (fun m tmp => do
      let v ← rd data (m : ℤ)
      let tmp ← wr tmp ((2 * m : ℕ) : ℤ) v
      wr tmp ((2 * m + 1 : ℕ) : ℤ) 0) (fresh junk (2 * p.n))
    let tmp ← blueOn p false tmp
    let v ← rd tmp 0
    let data ← wr data 0 v
    copyTo data 1 tmp 2 (p.n - 1)
  else realOn p.rf p.n 0 data

/-- `fftpack2halfcomplex`, ls_fft.c:151-165. -/
def toHalf (n : ℕ) (junk : ℕ → ℝ) (data : List ℝ) : Res (List ℝ) := do
  let v ← rd data 0
  let tmp ← wr (fresh junk n) 0 v
  let tmp ← forN ((n + 1) / 2 - 1) (fun i tmp => do
    let v ← rd data ((2 * (i + 1) - 1 : ℕ) : ℤ)
    let tmp ← wr tmp ((i + 1 : ℕ) : ℤ) v
    let v ← rd data ((2 * (i + 1) : ℕ) : ℤ)
    wr tmp ((n - (i + 1) : ℕ) : ℤ) v) tmp
  let tmp ← (if n % 2 = 0 then do
      let v ← rd data ((n - 1 : ℕ) : ℤ)
      wr tmp ((n / 2 : ℕ) : ℤ) v
    else ok tmp)
  copyTo data 0 tmp 0 n

/-- `halfcomplex2fftpack`, ls_fft.c:167-181. -/
def fromHalf (n : ℕ) (junk : ℕ → ℝ) (data : List ℝ) : Res (List ℝ) := do
  let v ← rd data 0
  let tmp ← wr (fresh junk n) 0 v
  let tmp ← forN ((n + 1) / 2 - 1) (fun i tmp => do
    let v ← rd data ((i + 1 : ℕ) : ℤ)
    let tmp ← wr tmp ((2 * (i + 1) - 1 : ℕ) : ℤ) v
    let v ← rd data ((n - (i + 1) : ℕ) : ℤ)
    wr tmp ((2 * (i + 1) : ℕ) : ℤ) v) tmp
  let tmp ← (if n % 2 = 0 then do
      let v ← rd data ((n / 2 : ℕ) : ℤ)
      wr tmp ((n - 1 : ℕ) : ℤ) v
    else ok tmp)
  copyTo data 0 tmp 0 n

/-- `real_plan_forward_fftw`, ls_fft.c:183-187. -/
def forwardFftw (p : RPlan) (junk : ℕ → ℝ) (data : List ℝ) : Res (List ℝ) := do
  let data ← forwardFftpack p junk data
  toHalf p.n junk data

/-- `real_plan_backward_fftpack`, ls_fft.c:189-211. -/
def backwardFftpack (p : RPlan) (junk : ℕ → ℝ) (data : List ℝ) : Res (List ℝ) :=
  if p.blue then do
    let v ← rd data 0
    let tmp ← wr (fresh junk (2 * p.n)) 0 v
    let tmp ← wr tmp 1 0
    let tmp ← copyTo tmp 2 data 1 (p.n - 1)
    let tmp ← (if p.n % 2 = 0 then wr tmp ((p.n + 1 : ℕ) : ℤ) 0 else ok tmp)
    let tmp ← forN ((p.n - 1) / 2) (fun i tmp => do
      let m := 2 * i + 2
      let v ← rd tmp ((m : ℕ) : ℤ)
      let tmp ← wr tmp ((2 * p.n - m : ℕ) : ℤ) v
      let v ← rd tmp ((m + 1 : ℕ) : ℤ)
      wr tmp ((2 * p.n - m + 1 : ℕ) : ℤ) (-v)) tmp
    let tmp ← blueOn p true tmp
    forN p.n (fun m data => do
      let v ← rd tmp ((2 * m : ℕ) : ℤ)
      wr data (m : ℤ) v) data
  else realOn p.rb p.n 0 data

/-- `real_plan_backward_fftw`, ls_fft.c:213-217. -/
def backwardFftw (p : RPlan) (junk : ℕ → ℝ) (data : List ℝ) : Res (List ℝ) := do
  let data ← fromHalf p.n junk data
  backwardFftpack p junk data

/-- The loop that makes a spectrum symmetric, ls_fft.c:230-239 and 266-275. -/
noncomputable def symmetrise (n : ℕ) (data : List ℝ) : Res (List ℝ) := do
  let data ← forN ((n - 1) / 2) (fun i data => do
    let m := 2 * i + 2
    let a ← rd data ((2 * n - m : ℕ) : ℤ)
    let b ← rd data ((m : ℕ) : ℤ)
    let avg := 0.5 * (a + b)
    let data ← wr data ((m : ℕ) : ℤ) avg
    let data ← wr data ((2 * n - m : ℕ) : ℤ) avg
    let a ← rd data ((2 * n - m + 1 : ℕ) : ℤ)
    let b ← rd data ((m + 1 : ℕ) : ℤ)
    let avg := 0.5 * (a - b)
    let data ← wr data ((2 * n - m + 1 : ℕ) : ℤ) avg
    wr data ((m + 1 : ℕ) : ℤ) (-avg)) data
  if n % 2 = 0 then wr data ((n + 1 : ℕ) : ℤ) 0 else ok data

/-- Clearing the imaginary parts, ls_fft.c:226-227 and 277-278. -/
def clearIm (n : ℕ) (data : List ℝ) : Res (List ℝ) := forN n (fun i data => wr data ((2 * i + 1 : ℕ) : ℤ) 0) data

/-- `real_plan_forward_c`, ls_fft.c:219-257; the buffer has `2n` entries, the data is at the even positions. -/
noncomputable def forwardC (p : RPlan) (data : List ℝ) : Res (List ℝ) :=
  if p.blue then do
    let data ← clearIm p.n data
    let data ← blueOn p false data
    let data ← wr data 1 0
    symmetrise p.n data
  else do
    let data ← forN p.n (fun m data => do
      let v ← rd data ((m + m : ℕ) : ℤ)
      wr data ((m + 1 : ℕ) : ℤ) v) data
    let data ← realOn p.rf p.n 1 data
    let v ← rd data 1
    let data ← wr data 0 v
    let data ← wr data 1 0
    let data ← forN ((p.n - 1) / 2) (fun i data => do
      let m := 2 * i + 2
      let v ← rd data ((m : ℕ) : ℤ)
      let data ← wr data ((2 * p.n - m : ℕ) : ℤ) v
      let v ← rd data ((m + 1 : ℕ) : ℤ)
      wr data ((2 * p.n - m + 1 : ℕ) : ℤ) (-v)) data
    if p.n % 2 = 0 then wr data ((p.n + 1 : ℕ) : ℤ) 0 else ok data

/-- `real_plan_backward_c`, ls_fft.c:259-292. -/
noncomputable def backwardC (p : RPlan) (data : List ℝ) : Res (List ℝ) :=
  if p.blue then do
    let data ← wr data 1 0
    let data ← symmetrise p.n data
    let data ← blueOn p true data
    clearIm p.n data
  else do
    let v ← rd data 0
    let data ← wr data 1 v
    let data ← realOn p.rb p.n 1 data
    forN p.n (fun i data => do
      let m := p.n - 1 - i
      let v ← rd data ((m + 1 : ℕ) : ℤ)
      let data ← wr data ((2 * m : ℕ) : ℤ) v
      wr data ((2 * m + 1 : ℕ) : ℤ) 0) data

/-! ## specification -/

/-- A buffer of `n` doubles with the entries `g`. -/
def tab (n : ℕ) (g : ℕ → ℝ) : List ℝ := (List.range n).map g

/-- The spectra of real data of length `n`. -/
structure Herm (n : ℕ) (X : ℕ → ℂ) : Prop where
  zero : (X 0).im = 0
  sym : ∀ k, 0 < k → k < n → X (n - k) = (starRingEnd ℂ) (X k)

/-- fftpack format: `r0 r1 i1 r2 i2 …`, ls_fft.h:101-110. -/
noncomputable def packed (X : ℕ → ℂ) (j : ℕ) : ℝ :=
  if j = 0 then (X 0).re else if j % 2 = 1 then (X ((j + 1) / 2)).re else (X (j / 2)).im

/-- FFTW's halfcomplex format: `r0 r1 … r(n/2) … i2 i1`, ls_fft.h:115-124. -/
noncomputable def half (n : ℕ) (X : ℕ → ℂ) (j : ℕ) : ℝ := if 2 * j ≤ n then (X j).re else (X (n - j)).im

/-- Interleaved complex numbers. -/
noncomputable def inter (X : ℕ → ℂ) (j : ℕ) : ℝ := if j % 2 = 0 then (X (j / 2)).re else (X (j / 2)).im

/-- The algorithms of the plan are correct: `bluestein` computes the transform, `rfftf` the fftpack format of the transform of real
data, `rfftb` the backward transform of a spectrum of real data in that format. -/
structure RPlan.OK (p : RPlan) : Prop where
  pos : 1 ≤ p.n
  bs : p.blue = true → ∀ back x, ∃ r, p.bs back ((List.range p.n).map x) = ok r ∧ ∀ k < p.n, r.getD k 0 = dftEntry back p.n x k
  rf : p.blue = false → ∀ x : ℕ → ℝ, p.rf (tab p.n x) = ok (tab p.n (packed (dftEntry false p.n (fun j => (x j : ℂ)))))
  rb : p.blue = false → ∀ X, Herm p.n X → p.rb (tab p.n (packed X)) = ok (tab p.n (fun j => (dftEntry true p.n X j).re))

/-! ## buffers -/

theorem tab_congr {n : ℕ} {g h : ℕ → ℝ} (e : ∀ j < n, g j = h j) : tab n g = tab n h := by
  unfold tab
  exact List.map_congr_left (fun j hj => e j (List.mem_range.mp hj))

@[simp] theorem tab_length (n : ℕ) (g : ℕ → ℝ) : (tab n g).length = n := by simp [tab]

theorem tab_getD {n : ℕ} {g : ℕ → ℝ} {j : ℕ} (h : j < n) : (tab n g).getD j 0 = g j := by
  unfold tab; simp [List.getD, h]

theorem rd_tab {n : ℕ} {g : ℕ → ℝ} {j : ℕ} (h : j < n) : rd (tab n g) (j : ℤ) = ok (g j) := by
  rw [rd_nat (by simpa using h)]
  simp [tab]

theorem wr_tab {n : ℕ} {g : ℕ → ℝ} {j : ℕ} (v : ℝ) (h : j < n) :
    wr (tab n g) (j : ℤ) v = ok (tab n (Function.update g j v)) := by
  rw [wr_nat v (by simpa using h)]
  congr 1
  apply List.ext_getElem (by simp)
  intro i h1 h2
  simp only [tab, List.getElem_set, List.getElem_map, List.getElem_range, Function.update_apply]
  split
  · rename_i e; subst e; simp
  · rename_i e; rw [if_neg (fun e' => e e'.symm)]

theorem forN_tab {L : ℕ} (n : ℕ) (body : ℕ → List ℝ → Res (List ℝ)) (G : ℕ → ℕ → ℝ)
    (h : ∀ i < n, body i (tab L (G i)) = ok (tab L (G (i + 1)))) : forN n body (tab L (G 0)) = ok (tab L (G n)) := by
  obtain ⟨t, h1, h2⟩ := forN_inv n body (tab L (G 0)) (fun i t => t = tab L (G i)) rfl
    (fun i t hi ht => ⟨_, by rw [ht]; exact h i hi, rfl⟩)
  rw [h1, h2]

theorem copyTo_tab {a b : ℕ} {g h : ℕ → ℝ} {d s len : ℕ} (h1 : d + len ≤ a) (h2 : s + len ≤ b) :
    copyTo (tab a g) d (tab b h) s len = ok (tab a (fun j => if d ≤ j ∧ j < d + len then h (s + (j - d)) else g j)) := by
  unfold copyTo
  rw [if_pos (by simpa using ⟨h1, h2⟩)]
  simp only [tab_length]
  congr 1
  apply tab_congr
  intro j hj
  by_cases hc : d ≤ j ∧ j < d + len
  · rw [if_pos hc, if_pos hc, tab_getD (by omega)]
  · rw [if_neg hc, if_neg hc, tab_getD hj]

theorem realOn_tab {f : List ℝ → Res (List ℝ)} {L n off : ℕ} {g r : ℕ → ℝ} (h : off + n ≤ L)
    (hf : f (tab n (fun j => g (off + j))) = ok (tab n r)) :
    realOn f n off (tab L g) = ok (tab L (fun j => if off ≤ j ∧ j < off + n then r (j - off) else g j)) := by
  unfold realOn
  rw [if_pos (by simpa using h)]
  have e : ((tab L g).drop off).take n = tab n (fun j => g (off + j)) := by
    apply List.ext_getElem (by simp; omega)
    intro i h1 h2
    simp [tab]
  rw [e, hf, ok_bind]
  simp only [tab_length]
  congr 1
  apply tab_congr
  intro j hj
  by_cases hc : off ≤ j ∧ j < off + n
  · rw [if_pos hc, if_pos hc, tab_getD (by omega)]
  · rw [if_neg hc, if_neg hc, tab_getD hj]

theorem blueOn_tab {p : RPlan} (hp : p.OK) (hb : p.blue = true) (back : Bool) (X : ℕ → ℂ) {g : ℕ → ℝ}
    (hg : ∀ j < 2 * p.n, g j = inter X j) :
    blueOn p back (tab (2 * p.n) g) = ok (tab (2 * p.n) (inter (dftEntry back p.n X))) := by
  unfold blueOn
  rw [if_pos (by simp)]
  have e : cpx p.n (tab (2 * p.n) g) = (List.range p.n).map X := by
    unfold cpx
    apply List.map_congr_left
    intro k hk
    have hk := List.mem_range.mp hk
    rw [tab_getD (by omega), tab_getD (by omega), hg _ (by omega), hg _ (by omega)]
    unfold inter
    rw [if_pos (by omega), if_neg (by omega)]
    rw [show 2 * k / 2 = k by omega, show (2 * k + 1) / 2 = k by omega]
  obtain ⟨r, h1, h2⟩ := hp.bs hb back X
  rw [e, h1, ok_bind]
  simp only [tab_length]
  congr 1
  apply tab_congr
  intro j hj
  rw [if_pos hj, h2 _ (by omega)]
  rfl

end Verif.Fft
