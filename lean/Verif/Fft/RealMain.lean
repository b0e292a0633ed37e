import Verif.Fft.RealPlan

/-! # C83: real transforms, theorems -/

namespace Verif.Fft
open Verif Res Finset

/-! ## specification -/

/-- The discrete Fourier transform of real data. -/
noncomputable def spectrum (n : ℕ) (x : ℕ → ℝ) (k : ℕ) : ℂ := ∑ j ∈ range n, (x j : ℂ) * Complex.exp (-(2 * Real.pi * Complex.I * j * k / n))

/-- Its backward counterpart, not normalised; for the spectra of real data the sum is real. -/
noncomputable def synthesis (n : ℕ) (X : ℕ → ℂ) (j : ℕ) : ℂ := ∑ k ∈ range n, X k * Complex.exp (2 * Real.pi * Complex.I * k * j / n)

theorem dftEntry_true (n : ℕ) (X : ℕ → ℂ) : dftEntry true n X = synthesis n X := by
  funext j
  unfold dftEntry synthesis
  refine sum_congr rfl (fun k _ => ?_)
  rw [zeta_dft true n k j]
  simp

theorem spec_eq (n : ℕ) (x : ℕ → ℝ) : spec n x = spectrum n x := by
  funext j
  unfold spec dftEntry spectrum
  refine sum_congr rfl (fun k _ => ?_)
  rw [zeta_dft false n k j]
  simp

/-- The reachable plans with Bluestein's algorithm: `l` calls after construction. -/
inductive BlueState (n : ℕ) (g : ℂ) : BPlan → Prop
  | new {b} : bluesteinI n g = ok b → BlueState n g b
  | call {b b'} (back : Bool) (xs r : List ℂ) : BlueState n g b → xs.length = n → bluestein back n xs b = ok (r, b') → BlueState n g b'

/-- The plan for real data with this state. -/
noncomputable def bluePlan (n : ℕ) (b : BPlan) (rf rb : List ℝ → Res (List ℝ)) : RPlan where
  n := n
  blue := true
  bs := fun back xs => do
    let r ← bluestein back n xs b
    ok r.1
  rf := rf
  rb := rb

theorem blueState_ok {n : ℕ} (h1 : 1 ≤ n) (hn : 4 * n ≤ 3 ^ 14) {g : ℂ} {b : BPlan} (h : BlueState n g b) : BPlanOk n b := by
  induction h with
  | new h =>
    obtain ⟨p, hp, hok⟩ := bluesteinI_spec n h1 hn g
    rw [hp] at h
    cases h
    exact hok
  | call back xs r _ hl hr ih =>
    obtain ⟨r', p', he, _, hok, _⟩ := bluestein_spec back h1 _ ih xs hl
    rw [he] at hr
    cases hr
    exact hok

theorem bluePlan_ok {n : ℕ} (h1 : 1 ≤ n) (hn : 4 * n ≤ 3 ^ 14) {g : ℂ} {b : BPlan} (h : BlueState n g b) (rf rb) :
    (bluePlan n b rf rb).OK := by
  refine ⟨h1, fun _ back x => ?_, fun h => (by cases h), fun h => (by cases h)⟩
  obtain ⟨r, p', he, _, _, hr⟩ := bluestein_spec back h1 _ (blueState_ok h1 hn h) ((List.range n).map x) (by simp)
  refine ⟨r, ?_, fun k hk => ?_⟩
  · unfold bluePlan
    dsimp only
    rw [he, ok_bind]
  · rw [hr k hk]
    unfold dftEntry
    refine sum_congr rfl (fun q hq => ?_)
    have : q < n := mem_range.mp hq
    change _ = x q * zeta n (sg back * (k * q))
    simp [List.getD, this]

/-! ## theorems -/

variable {p : RPlan}

/-- `forward`: what the three functions leave in the buffer is the discrete Fourier transform of the data, in the format of the function,
whatever the scratch memory contains, and no access is out of bounds. The data of `forward_c` is at the even positions; the odd positions
may contain anything. -/
theorem C83_forward_partial (hp : p.OK) (junk junk' x d : ℕ → ℝ) (hd : ∀ k < p.n, d (2 * k) = x k) :
    forwardFftpack p junk (tab p.n x) = ok (tab p.n (packed (spectrum p.n x))) ∧
    (do let r ← forwardFftpack p junk (tab p.n x); toHalf p.n junk' r) = ok (tab p.n (half p.n (spectrum p.n x))) ∧
    forwardFftw p junk (tab p.n x) = ok (tab p.n (half p.n (spectrum p.n x))) ∧
    forwardC p (tab (2 * p.n) d) = ok (tab (2 * p.n) (inter (spectrum p.n x))) := by
  have h := forwardFftpack_tab hp junk x
  rw [← spec_eq]
  refine ⟨h, ?_, ?_, forwardC_tab hp x d hd⟩
  · rw [h, ok_bind, toHalf_tab hp.pos]
  · unfold forwardFftw
    rw [h, ok_bind, toHalf_tab hp.pos]

/-- `backward`, of spectra of real data. -/
theorem C83_backward_partial (hp : p.OK) (junk : ℕ → ℝ) {X : ℕ → ℂ} (hX : Herm p.n X) :
    backwardFftpack p junk (tab p.n (packed X)) = ok (tab p.n (fun j => (synthesis p.n X j).re)) ∧
    backwardFftw p junk (tab p.n (half p.n X)) = ok (tab p.n (fun j => (synthesis p.n X j).re)) ∧
    backwardC p (tab (2 * p.n) (inter X)) = ok (tab (2 * p.n) (inter (synthesis p.n X))) := by
  have h := backwardFftpack_tab hp junk hX
  rw [← dftEntry_true]
  refine ⟨h, ?_, ?_⟩
  · unfold backwardFftw
    rw [fromHalf_tab hp.pos, ok_bind, h]
  · rw [backwardC_tab hp hX]
    congr 1
    apply tab_congr
    intro j hj
    unfold inter
    by_cases hc : j % 2 = 1
    · rw [if_pos hc, if_neg (by omega), dft_real hp.pos hX]
    · rw [if_neg hc, if_pos (by omega)]

theorem synthesis_spectrum {n : ℕ} (h1 : 1 ≤ n) (x : ℕ → ℝ) {j : ℕ} (hj : j < n) : synthesis n (spectrum n x) j = (n * x j : ℝ) := by
  have h := C41_roundtrip h1 ((List.range n).map (fun j => (x j : ℂ))) (by simp)
  have e : dftList false n ((List.range n).map (fun j => (x j : ℂ))) = (List.range n).map (spectrum n x) := by
    unfold dftList spectrum
    apply List.map_congr_left
    intro k _
    refine sum_congr rfl (fun q hq => ?_)
    have := mem_range.mp hq
    simp [List.getD, this]
  rw [e] at h
  have h' := congrArg (fun l => l.getD j 0) h
  have a : (dftList true n ((List.range n).map (spectrum n x))).getD j 0 = synthesis n (spectrum n x) j := by
    unfold dftList synthesis
    rw [List.getD, List.getElem?_map, List.getElem?_range hj]
    simp only [Option.map_some, Option.getD_some]
    refine sum_congr rfl (fun q hq => ?_)
    have := mem_range.mp hq
    simp [List.getD, this]
  rw [← a]
  rw [h']
  simp [List.getD, hj]

theorem herm_spectrum {n : ℕ} (h1 : 1 ≤ n) (x : ℕ → ℝ) : Herm n (spectrum n x) := by
  rw [← spec_eq]
  exact herm_dft h1 x

/-- `forward` and then `backward`, in each format: the data, times the length. -/
theorem C83_roundtrip_partial (hp : p.OK) (junk junk' x d : ℕ → ℝ) (hd : ∀ k < p.n, d (2 * k) = x k) :
    (do let r ← forwardFftpack p junk (tab p.n x); backwardFftpack p junk' r) = ok (tab p.n (fun j => p.n * x j)) ∧
    (do let r ← forwardFftw p junk (tab p.n x); backwardFftw p junk' r) = ok (tab p.n (fun j => p.n * x j)) ∧
    (do let r ← forwardC p (tab (2 * p.n) d); backwardC p r) =
      ok (tab (2 * p.n) (fun j => if j % 2 = 1 then 0 else p.n * x (j / 2))) := by
  have h1 := hp.pos
  obtain ⟨f1, _, f2, f3⟩ := C83_forward_partial hp junk junk x d hd
  obtain ⟨b1, b2, b3⟩ := C83_backward_partial hp junk' (herm_spectrum h1 x)
  have e : tab p.n (fun j => (synthesis p.n (spectrum p.n x) j).re) = tab p.n (fun j => p.n * x j) := by
    apply tab_congr
    intro j hj
    rw [synthesis_spectrum h1 x hj, Complex.ofReal_re]
  refine ⟨?_, ?_, ?_⟩
  · rw [f1, ok_bind, b1, e]
  · rw [f2, ok_bind, b2, e]
  · rw [f3, ok_bind, b3]
    congr 1
    apply tab_congr
    intro j hj
    unfold inter
    rw [synthesis_spectrum h1 x (by omega), Complex.ofReal_re, Complex.ofReal_im]
    by_cases hc : j % 2 = 1
    · rw [if_pos hc, if_neg (by omega)]
    · rw [if_neg hc, if_pos (by omega)]

/-- The two storage formats of spectra are in bijection: `fftpack2halfcomplex` and `halfcomplex2fftpack` are inverse on every buffer. -/
theorem C83_formats {n : ℕ} (h1 : 1 ≤ n) (junk junk' g : ℕ → ℝ) :
    (∃ h, toHalf n junk (tab n g) = ok (tab n h) ∧ fromHalf n junk' (tab n h) = ok (tab n g)) ∧
    ∀ X, toHalf n junk (tab n (packed X)) = ok (tab n (half n X)) ∧ fromHalf n junk (tab n (half n X)) = ok (tab n (packed X)) := by
  refine ⟨?_, fun X => ⟨toHalf_tab h1 junk X, fromHalf_tab h1 junk X⟩⟩
  obtain ⟨X, rfl⟩ := packed_surj g
  exact ⟨_, toHalf_tab h1 junk X, fromHalf_tab h1 junk' X⟩

/-- With Bluestein's algorithm nothing is assumed: for `n ≤ 3^14/4`, a plan can be made, and after any history of calls it satisfies the
hypotheses of the theorems above. -/
theorem C83_bluestein {n : ℕ} (h1 : 1 ≤ n) (hn : 4 * n ≤ 3 ^ 14) (g : ℂ) (rf rb : List ℝ → Res (List ℝ)) :
    (∃ b, bluesteinI n g = ok b) ∧
    ∀ b, BlueState n g b → (bluePlan n b rf rb).OK ∧
      ∀ (junk x d : ℕ → ℝ), (∀ k < n, d (2 * k) = x k) →
        forwardFftpack (bluePlan n b rf rb) junk (tab n x) = ok (tab n (packed (spectrum n x))) ∧
        forwardFftw (bluePlan n b rf rb) junk (tab n x) = ok (tab n (half n (spectrum n x))) ∧
        forwardC (bluePlan n b rf rb) (tab (2 * n) d) = ok (tab (2 * n) (inter (spectrum n x))) := by
  obtain ⟨b, hb, _⟩ := bluesteinI_spec n h1 hn g
  refine ⟨⟨b, hb⟩, fun b h => ⟨bluePlan_ok h1 hn h rf rb, fun junk x d hd => ?_⟩⟩
  obtain ⟨a, _, b, c⟩ := C83_forward_partial (bluePlan_ok h1 hn h rf rb) junk junk x d hd
  exact ⟨a, b, c⟩


/-- The whole property, for the two functions `rfftf`, `rfftb` of the linked library: every plan, with either algorithm. -/
def C83_Full (rfftf rfftb : ℕ → List ℝ → Res (List ℝ)) : Prop :=
  ∀ (n : ℕ) (g : ℂ) (b : BPlan) (blue : Bool) (junk junk' x d : ℕ → ℝ) (X : ℕ → ℂ), 1 ≤ n → 4 * n ≤ 3 ^ 14 → BlueState n g b →
    (∀ k < n, d (2 * k) = x k) → Herm n X →
    let p : RPlan := { bluePlan n b (rfftf n) (rfftb n) with blue := blue }
    forwardFftpack p junk (tab n x) = ok (tab n (packed (spectrum n x))) ∧
    forwardFftw p junk (tab n x) = ok (tab n (half n (spectrum n x))) ∧
    forwardC p (tab (2 * n) d) = ok (tab (2 * n) (inter (spectrum n x))) ∧
    backwardFftpack p junk (tab n (packed X)) = ok (tab n (fun j => (synthesis n X j).re)) ∧
    backwardFftw p junk (tab n (half n X)) = ok (tab n (fun j => (synthesis n X j).re)) ∧
    backwardC p (tab (2 * n) (inter X)) = ok (tab (2 * n) (inter (synthesis n X))) ∧
    (do let r ← forwardFftpack p junk (tab n x); backwardFftpack p junk' r) = ok (tab n (fun j => n * x j)) ∧
    (do let r ← forwardFftw p junk (tab n x); backwardFftw p junk' r) = ok (tab n (fun j => n * x j)) ∧
    (do let r ← forwardC p (tab (2 * n) d); backwardC p r) = ok (tab (2 * n) (fun j => if j % 2 = 1 then 0 else n * x (j / 2)))

/-- What is missing is exactly the correctness of `rfftf` and `rfftb`. -/
theorem C83_contract_partial (rfftf rfftb : ℕ → List ℝ → Res (List ℝ))
    (hf : ∀ n, 1 ≤ n → ∀ x : ℕ → ℝ, rfftf n (tab n x) = ok (tab n (packed (spectrum n x))))
    (hb : ∀ n, 1 ≤ n → ∀ X, Herm n X → rfftb n (tab n (packed X)) = ok (tab n (fun j => (synthesis n X j).re))) :
    C83_Full rfftf rfftb := by
  intro n g b blue junk junk' x d X h1 hn hs hd hX p
  have hp : p.OK := by
    refine ⟨h1, fun _ => (bluePlan_ok h1 hn hs (rfftf n) (rfftb n)).bs rfl, fun _ x => ?_, fun _ X hX => ?_⟩
    · have := hf n h1 x
      rw [← spec_eq] at this
      exact this
    · have := hb n h1 X hX
      rw [← dftEntry_true] at this
      exact this
  obtain ⟨f1, _, f2, f3⟩ := C83_forward_partial hp junk junk x d hd
  obtain ⟨b1, b2, b3⟩ := C83_backward_partial hp junk hX
  obtain ⟨r1, r2, r3⟩ := C83_roundtrip_partial hp junk junk' x d hd
  exact ⟨f1, f2, f3, b1, b2, b3, r1, r2, r3⟩

/-! ## non-vacuity -/

/-- A plan with both algorithms. -/
noncomputable def idealPlan (n : ℕ) (blue : Bool) : RPlan where
  n := n
  blue := blue
  bs := fun back xs => ok ((List.range n).map (dftEntry back n (fun j => xs.getD j 0)))
  rf := fun xs => ok (tab n (packed (dftEntry false n (fun j => ((xs.getD j 0 : ℝ) : ℂ)))))
  rb := fun xs => ok (tab n (fun j => (dftEntry true n (fun k => if k = 0 then ((xs.getD 0 0 : ℝ) : ℂ) else
    if 2 * k < n then ⟨xs.getD (2 * k - 1) 0, xs.getD (2 * k) 0⟩ else if 2 * k = n then ((xs.getD (2 * k - 1) 0 : ℝ) : ℂ) else
    ⟨xs.getD (2 * (n - k) - 1) 0, -xs.getD (2 * (n - k)) 0⟩) j).re))

theorem idealPlan_ok {n : ℕ} (h1 : 1 ≤ n) (blue : Bool) : (idealPlan n blue).OK := by
  refine ⟨h1, fun _ back x => ⟨_, rfl, fun k hk => ?_⟩, fun _ x => ?_, fun _ X hX => ?_⟩
  · have hk : k < n := hk
    change ((List.range n).map (dftEntry back n (fun j => ((List.range n).map x).getD j 0))).getD k 0 = _
    rw [List.getD, List.getElem?_map, List.getElem?_range hk]
    simp only [Option.map_some, Option.getD_some]
    refine dftEntry_congr back n (fun j hj => ?_) k
    simp [List.getD, hj]
  · change ok (tab n (packed (dftEntry false n (fun j => (((tab n x).getD j 0 : ℝ) : ℂ))))) = _
    congr 2
    congr 1
    funext k
    refine dftEntry_congr false n (fun j hj => ?_) k
    rw [tab_getD hj]
  · change ok (tab n _) = _
    congr 1
    apply tab_congr
    intro j hj
    congr 1
    refine dftEntry_congr true n (fun k hk => ?_) j
    change k < n at hk
    have hX : Herm n X := hX
    by_cases h0 : k = 0
    · rw [if_pos h0, h0]
      change (((tab n (packed X)).getD 0 0 : ℝ) : ℂ) = X 0
      rw [tab_getD (by omega), packed_zero]
      exact Complex.ext rfl (hX.zero.symm)
    rw [if_neg h0]
    by_cases h2 : 2 * k < n
    · rw [if_pos h2]
      change (⟨(tab n (packed X)).getD (2 * k - 1) 0, (tab n (packed X)).getD (2 * k) 0⟩ : ℂ) = X k
      rw [tab_getD (by omega), tab_getD (by omega), packed_re X (by omega), packed_im X (by omega)]
    rw [if_neg h2]
    by_cases h3 : 2 * k = n
    · rw [if_pos h3]
      change (((tab n (packed X)).getD (2 * k - 1) 0 : ℝ) : ℂ) = X k
      rw [tab_getD (by omega), packed_re X (by omega)]
      have := hX.mid h1 (by omega)
      rw [show n / 2 = k by omega] at this
      exact Complex.ext rfl this.symm
    · rw [if_neg h3]
      change (⟨(tab n (packed X)).getD (2 * (n - k) - 1) 0, -(tab n (packed X)).getD (2 * (n - k)) 0⟩ : ℂ) = X k
      rw [tab_getD (by omega), tab_getD (by omega), packed_re X (by omega), packed_im X (by omega), hX.re (by omega) hk, hX.im (by omega) hk,
        neg_neg]

/-- The hypotheses hold for both kinds of plan, and the spectrum of `0, 2, 0, 0` is not real. -/
example : (idealPlan 3 false).OK ∧ (idealPlan 3 true).OK ∧ Herm 4 (spectrum 4 (fun j => j)) ∧
    (spectrum 4 (fun j => if j = 1 then 2 else 0) 1).im = -2 := by
  refine ⟨idealPlan_ok (by norm_num) _, idealPlan_ok (by norm_num) _, herm_spectrum (by norm_num) _, ?_⟩
  unfold spectrum
  simp only [sum_range_succ, range_zero, sum_empty]
  rw [if_neg (by norm_num), if_pos trivial, if_neg (by norm_num), if_neg (by norm_num)]
  have : -(2 * (Real.pi : ℂ) * Complex.I * ((1 : ℕ) : ℂ) * ((1 : ℕ) : ℂ) / ((4 : ℕ) : ℂ)) = ((-(Real.pi / 2) : ℝ) : ℂ) * Complex.I := by
    push_cast; ring
  rw [this, Complex.exp_mul_I, ← Complex.ofReal_cos, ← Complex.ofReal_sin]
  simp

end Verif.Fft
