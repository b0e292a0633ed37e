import Verif.Fft.BlueProof
import Verif.Fft.PrimeSum
import Verif.Num.Annulus

/-! # C41 -/

namespace Verif.Fft
open Verif Res Finset

/-- Specification: the transform of length `n`, `X_k = Σ_j x_j exp(±2πi jk/n)` (`+` backward). -/
noncomputable def dftList (back : Bool) (n : ℕ) (xs : List ℂ) : List ℂ :=
  (List.range n).map (fun k : ℕ => ∑ j ∈ range n, xs.getD j 0 *
    Complex.exp ((if back then 1 else -1) * (2 * Real.pi * Complex.I * j * k / n)))

theorem zeta_dft (back : Bool) (n j k : ℕ) :
    zeta n (sg back * (k * j)) = Complex.exp ((if back then 1 else -1) * (2 * Real.pi * Complex.I * j * k / n)) := by
  unfold zeta
  congr 1
  cases back <;> simp [sg] <;> ring

theorem eq_dftList (back : Bool) {n : ℕ} {xs r : List ℂ} (hl : r.length = n)
    (h : ∀ k < n, r.getD k 0 = ∑ q ∈ range n, xs.getD q 0 * zeta n (sg back * (k * q))) : r = dftList back n xs := by
  apply List.ext_getElem
  · simp [dftList, hl]
  · intro k h1 h2
    have := h k (by omega)
    simp only [List.getD, List.getElem?_eq_getElem h1, Option.getD_some] at this
    rw [this]
    simp only [dftList, List.getElem_map, List.getElem_range]
    apply sum_congr rfl
    intro q _
    rw [zeta_dft]; rfl

/-- A valid plan of length `n`. -/
def PlanOk (n : ℕ) (p : Plan) : Prop :=
  p.length = n ∧ match p.work with
    | PlanW.pack w => WorkOk n w
    | PlanW.blue b => BPlanOk n b

theorem exec_spec (back : Bool) {n : ℕ} (h1 : 1 ≤ n) {p : Plan} (hp : PlanOk n p) {xs : List ℂ} (hx : xs.length = n) :
    ∃ p', p.exec back xs = ok (dftList back n xs, p') ∧ PlanOk n p' := by
  obtain ⟨hl, hw⟩ := hp
  unfold Plan.exec
  cases hpw : p.work with
  | pack w =>
    rw [hpw] at hw
    obtain ⟨r, w', hr, a, b, c⟩ := cfft_spec back h1 xs hx w hw
    dsimp only
    rw [hl, hr, ok_bind, eq_dftList back a c]
    exact ⟨_, rfl, rfl, b⟩
  | blue q =>
    rw [hpw] at hw
    obtain ⟨r, w', hr, a, b, c⟩ := bluestein_spec back h1 q hw xs hx
    dsimp only
    rw [hl, hr, ok_bind, eq_dftList back a c]
    exact ⟨_, rfl, rfl, b⟩

theorem makePlan_spec (useBlue : Bool) (n : ℕ) (h1 : 1 ≤ n) (hn : 4 * n ≤ 3 ^ 14) (g : ℂ) :
    ∃ p, makePlan useBlue n g = ok p ∧ PlanOk n p := by
  unfold makePlan
  cases useBlue
  · rw [if_neg (by simp)]
    obtain ⟨w, hw, h⟩ := cffti_spec n h1 (by omega) g
    rw [hw, ok_bind]
    exact ⟨_, rfl, rfl, h⟩
  · rw [if_pos rfl]
    obtain ⟨b, hb, h⟩ := bluesteinI_spec n h1 hn g
    rw [hb, ok_bind]
    exact ⟨_, rfl, rfl, h⟩

theorem makeComplexPlan_spec (cost : ℕ → ℕ → Bool) (n : ℕ) (h1 : 1 ≤ n) (hn : 4 * n ≤ 3 ^ 14) (g : ℂ) :
    ∃ p, makeComplexPlan cost n g = ok p ∧ PlanOk n p := by
  unfold makeComplexPlan
  rw [C41_prime_factor_sum n h1, ok_bind]
  exact makePlan_spec _ n h1 hn g

theorem runs_spec {n : ℕ} (h1 : 1 ≤ n) (qs : List (Bool × List ℂ)) : ∀ p : Plan, PlanOk n p → (∀ q ∈ qs, q.2.length = n) →
    p.runs qs = ok (qs.map (fun q => dftList q.1 n q.2)) := by
  induction qs with
  | nil => intro p _ _; rfl
  | cons q qs ih =>
    intro p hp hq
    obtain ⟨p', he, hp'⟩ := exec_spec q.1 h1 hp (hq q (by simp))
    unfold Plan.runs
    rw [he, ok_bind]
    dsimp only
    rw [ih p' hp' (fun q' hq' => hq q' (by simp [hq'])), ok_bind]
    rfl

/-- For every length `1 ≤ n ≤ 3^14/4` (1 195 742; the library's transforms have length `2 lmax + 1 ≤ 200 001`), whichever
algorithm the cost estimate selects and whatever the freshly allocated memory contains, creating a plan succeeds, and every
call of `forward`/`backward` on it, after any history of calls, stays inside its buffers and returns the discrete Fourier
transform of its argument. -/
theorem C41_dft (cost : ℕ → ℕ → Bool) {n : ℕ} (h1 : 1 ≤ n) (hn : 4 * n ≤ 3 ^ 14) (g : ℂ) : ∃ p, makeComplexPlan cost n g = ok p ∧
    ∀ qs : List (Bool × List ℂ), (∀ q ∈ qs, q.2.length = n) → p.runs qs = ok (qs.map (fun q => dftList q.1 n q.2)) := by
  obtain ⟨p, hp, hok⟩ := makeComplexPlan_spec cost n h1 hn g
  exact ⟨p, hp, fun qs hq => runs_spec h1 qs p hok hq⟩

/-- Mixed-radix plans alone work up to `n < 3^14`. -/
theorem C41_mixed_radix {n : ℕ} (h1 : 1 ≤ n) (hn : n < 3 ^ 14) (g : ℂ) : ∃ p, makePlan false n g = ok p ∧
    ∀ qs : List (Bool × List ℂ), (∀ q ∈ qs, q.2.length = n) → p.runs qs = ok (qs.map (fun q => dftList q.1 n q.2)) := by
  obtain ⟨w, hw, h⟩ := cffti_spec n h1 hn g
  refine ⟨⟨n, PlanW.pack w⟩, ?_, fun qs hq => runs_spec h1 qs _ ⟨rfl, h⟩ hq⟩
  unfold makePlan
  rw [if_neg (by simp), hw, ok_bind]

/-- At `n = 3^14` and every larger power of three a mixed-radix plan writes behind its work array. -/
theorem C41_factor_overflow (k : ℕ) (hk : 14 ≤ k) (g : ℂ) : (makePlan false (3 ^ k) g).IsUB := by
  unfold makePlan
  rw [if_neg (by simp)]
  unfold cffti
  rw [if_pos (ne_of_gt (Nat.one_lt_pow (by omega) (by norm_num)))]
  unfold cffti1
  rw [factorize_overflow k hk]
  exact True.intro

/-- `forward` followed by `backward` multiplies by the length, for every pair of algorithms. -/
theorem C41_roundtrip {n : ℕ} (h1 : 1 ≤ n) (xs : List ℂ) (hx : xs.length = n) :
    dftList true n (dftList false n xs) = xs.map (fun x => (n : ℂ) * x) := by
  symm
  apply eq_dftList true (by simpa using hx)
  intro k hk
  have h0 : n ≠ 0 := by omega
  have e1 : ∀ q ∈ range n, (dftList false n xs).getD q 0 * zeta n (sg true * (k * q)) =
      ∑ j ∈ range n, xs.getD j 0 * zeta n (((k : ℤ) - j) * q) := by
    intro q hq
    rw [mem_range] at hq
    unfold dftList
    rw [getD_map_range _ _ hq, sum_mul]
    apply sum_congr rfl
    intro j _
    rw [← zeta_dft, mul_assoc, ← zeta_add]
    congr 2
    simp [sg]; ring
  rw [sum_congr rfl e1, sum_comm]
  have e2 : ∀ j ∈ range n, ∑ q ∈ range n, xs.getD j 0 * zeta n (((k : ℤ) - j) * q) = if j = k then xs.getD k 0 * n else 0 := by
    intro j hj
    rw [mem_range] at hj
    rw [← mul_sum, zeta_orth h0]
    by_cases e : j = k
    · subst e; simp
    · rw [if_neg e, if_neg, mul_zero]
      rintro ⟨q, hq⟩
      have : q = 0 := by
        by_contra hc
        rcases lt_or_gt_of_ne hc with c | c
        · nlinarith
        · nlinarith
      subst this
      omega
  rw [sum_congr rfl e2, sum_ite_eq' (range n), if_pos (mem_range.mpr hk)]
  simp [List.getD, hx, hk, mul_comm]

/-- `good_size` returns the smallest product of powers of 2, 3 and 5 that is at least `n`. -/
theorem C41_good_size (n : ℕ) (h1 : 1 ≤ n) : ∃ r, goodSize n = ok r ∧ n ≤ r ∧ (∃ j k l, r = 2 ^ j * 3 ^ k * 5 ^ l) ∧
    ∀ j k l : ℕ, n ≤ 2 ^ j * 3 ^ k * 5 ^ l → r ≤ 2 ^ j * 3 ^ k * 5 ^ l := by
  obtain ⟨r, a, b, _, c, d⟩ := goodSize_spec n h1
  exact ⟨r, a, b, c, d⟩

/-! ## use by the convolution -/

/-- The plan after a sequence of calls. -/
noncomputable def Plan.after (p : Plan) : List (Bool × List ℂ) → Res Plan
  | [] => ok p
  | q :: qs => do
    let r ← p.exec q.1 q.2
    r.2.after qs

/-- `cfft::backward` as a function of the data, ls_fftpack_support.h:76-85. -/
noncomputable def Plan.backward (p : Plan) (xs : List ℂ) : List ℂ :=
  match p.exec true xs with
  | ok r => r.1
  | _ => []

theorem after_spec {n : ℕ} (h1 : 1 ≤ n) (qs : List (Bool × List ℂ)) : ∀ p : Plan, PlanOk n p → (∀ q ∈ qs, q.2.length = n) →
    ∃ p', p.after qs = ok p' ∧ PlanOk n p' := by
  induction qs with
  | nil => intro p hp _; exact ⟨p, rfl, hp⟩
  | cons q qs ih =>
    intro p hp hq
    obtain ⟨p', he, hp'⟩ := exec_spec q.1 h1 hp (hq q (by simp))
    obtain ⟨p'', h, h'⟩ := ih p' hp' (fun q' hq' => hq q' (by simp [hq']))
    refine ⟨p'', ?_, h'⟩
    unfold Plan.after
    rw [he, ok_bind]; exact h

theorem backward_of_ok {n : ℕ} (h1 : 1 ≤ n) {p : Plan} (hp : PlanOk n p) : Num.IsBackward p.backward n := by
  intro xs hx
  obtain ⟨p', he, _⟩ := exec_spec true h1 hp hx
  unfold Plan.backward
  rw [he]
  refine ⟨by simp [dftList], fun k hk => ?_⟩
  dsimp only [dftList]
  rw [getD_map_range _ _ hk]
  apply sum_congr rfl
  intro j _
  simp

/-- The hypothesis on the transform made by the theorems about rings and samples (C18, C19, C34, C44) holds for the library's
own plans of every length `2 lmax + 1`, `lmax ≤ 100000 = LMAXMAX`, in every state such a plan can reach. -/
theorem C41_library_transform (cost : ℕ → ℕ → Bool) {lmax : ℕ} (hl : lmax ≤ 100000) (g : ℂ) :
    ∃ p, makeComplexPlan cost (2 * lmax + 1) g = ok p ∧
      ∀ qs : List (Bool × List ℂ), (∀ q ∈ qs, q.2.length = 2 * lmax + 1) →
        ∃ p', p.after qs = ok p' ∧ Num.IsBackward p'.backward (2 * lmax + 1) := by
  obtain ⟨p, hp, hok⟩ := makeComplexPlan_spec cost (2 * lmax + 1) (by omega) (by norm_num; omega) g
  refine ⟨p, hp, fun qs hq => ?_⟩
  obtain ⟨p', h, h'⟩ := after_spec (by omega) qs p hok hq
  exact ⟨p', h, backward_of_ok (by omega) h'⟩

/-! ## non-vacuity -/

/-- A concrete non-trivial case: length 77 = 7·11 (general butterflies) by the mixed-radix code and by Bluestein. -/
example : ∃ p q, makePlan false 77 0 = ok p ∧ makePlan true 77 0 = ok q ∧
    p.runs [(false, List.replicate 77 1), (true, List.replicate 77 2)] = q.runs [(false, List.replicate 77 1), (true, List.replicate 77 2)] := by
  obtain ⟨p, hp, hok⟩ := makePlan_spec false 77 (by norm_num) (by norm_num) 0
  obtain ⟨q, hq, hqk⟩ := makePlan_spec true 77 (by norm_num) (by norm_num) 0
  refine ⟨p, q, hp, hq, ?_⟩
  rw [runs_spec (by norm_num) _ p hok (by simp), runs_spec (by norm_num) _ q hqk (by simp)]

example : factorize 360 = ok [4, 6, 3, 5] := by decide
example : factorize 154 = ok [2, 7, 11] := by decide
example : factorize 40 = ok [2, 4, 5] := by decide
example : goodSize 153 = ok 160 := by decide

end Verif.Fft
