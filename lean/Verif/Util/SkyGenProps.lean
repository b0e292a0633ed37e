import Verif.Util.SkyGen
import Mathlib.Probability.Independence.InfinitePi
import Mathlib.Probability.Independence.Integration
import Mathlib.Probability.Distributions.Gaussian.Real

/-!
# Random skies with a prescribed power spectrum (C69)
-/

namespace Verif.SkyGen

open Verif Res Verif.Harm Verif.Num Verif.PowSpec MeasureTheory ProbabilityTheory

variable {G : Type}

/-! ## The extracted spectrum in terms of the real components -/

theorem sum_comps (f : ℕ → ℝ) (n : ℕ) :
    ∑ i ∈ Finset.range (1 + 2 * n), f i = f 0 + ∑ k ∈ Finset.range n, (f (1 + 2 * k) + f (1 + 2 * k + 1)) := by
  induction n with
  | zero => simp
  | succ n ih =>
    rw [show 1 + 2 * (n + 1) = 1 + 2 * n + 1 + 1 by ring, Finset.sum_range_succ, Finset.sum_range_succ, ih,
      Finset.sum_range_succ]
    ring

theorem cross_flat {a b : Alm ℂ} {x y : ℕ → ℕ → ℝ} (ha : a.WF) (hc : conformable a b) (hx : Holds a x) (hy : Holds b y)
    {l : ℕ} (hl : (l : ℤ) ≤ a.lmax) :
    cross (coef a) (coef b) a.mmax l = (∑ i ∈ Finset.range (comps a.mmax l), x l i * y l i) / (2 * l + 1) := by
  obtain ⟨cl, cm⟩ := hc
  have h0 := ha.1
  have h2 : (√2 : ℝ) * √2 = 2 := Real.mul_self_sqrt (by norm_num)
  have h2' : (√2 : ℝ) ≠ 0 := by positivity
  have cx : ∀ m : ℕ, (m : ℤ) ≤ a.mmax → m ≤ l →
      coef a l m = (if m = 0 then ((x l 0 : ℝ) : ℂ) else ⟨x l (2 * m - 1) / √2, x l (2 * m) / √2⟩) := by
    intro m p q
    unfold coef
    rw [hx l m p q hl]
  have cy : ∀ m : ℕ, (m : ℤ) ≤ a.mmax → m ≤ l →
      coef b l m = (if m = 0 then ((y l 0 : ℝ) : ℂ) else ⟨y l (2 * m - 1) / √2, y l (2 * m) / √2⟩) := by
    intro m p q
    unfold coef
    rw [hy l m (by omega) q (by omega)]
  unfold cross comps
  rw [sum_comps]
  congr 1
  have z1 := cx 0 (by omega) (by omega)
  have z2 := cy 0 (by omega) (by omega)
  rw [if_pos rfl] at z1 z2
  simp only [Nat.cast_zero] at z1 z2
  rw [z1, z2, Complex.ofReal_re, Complex.ofReal_re, Finset.mul_sum]
  congr 1
  apply Finset.sum_congr rfl
  intro k hk
  have hk' := Finset.mem_range.mp hk
  have w1 := cx (k + 1) (by omega) (by omega)
  have w2 := cy (k + 1) (by omega) (by omega)
  rw [if_neg (by omega), show 2 * (k + 1) - 1 = 1 + 2 * k by omega, show 2 * (k + 1) = 1 + 2 * k + 1 by omega] at w1 w2
  push_cast at w1 w2
  rw [w1, w2, Complex.mul_re, Complex.conj_re, Complex.conj_im]
  have : ∀ u v : ℝ, u / √2 * (v / √2) = u * v / 2 := by
    intro u v
    rw [div_mul_div_comm, h2]
  simp only [mul_neg, sub_neg_eq_add, this]
  ring

/-! ## The ideal generator -/

/-- The numbers delivered are uncorrelated and have mean square one (`z n` is the `n`-th number as a function of the outcome). -/
structure White {Ω : Type} [MeasurableSpace Ω] (μ : Measure Ω) (z : ℕ → Ω → ℝ) : Prop where
  int : ∀ i j, Integrable (fun ω => z i ω * z j ω) μ
  cov : ∀ i j, ∫ ω, z i ω * z j ω ∂μ = if i = j then 1 else 0

/-- Independent standard normal numbers are such. -/
theorem white_gauss : White (Measure.infinitePi fun _ : ℕ => gaussianReal 0 1) (fun n ω => ω n) := by
  have hint : ∀ f : ℝ → ℝ, AEStronglyMeasurable f (gaussianReal 0 1) → ∀ i : ℕ,
      ∫ ω, f (ω i) ∂(Measure.infinitePi fun _ : ℕ => gaussianReal 0 1) = ∫ x, f x ∂(gaussianReal 0 1) := by
    intro f hf i
    have h := measurePreserving_eval_infinitePi (fun _ : ℕ => gaussianReal 0 1) i
    have e := integral_map (f := f) h.measurable.aemeasurable (by rw [h.map_eq]; exact hf)
    rw [h.map_eq] at e
    exact e.symm
  have hig : ∀ f : ℝ → ℝ, Integrable f (gaussianReal 0 1) → ∀ i : ℕ,
      Integrable (fun ω => f (ω i)) (Measure.infinitePi fun _ : ℕ => gaussianReal 0 1) := by
    intro f hf i
    exact (measurePreserving_eval_infinitePi (fun _ : ℕ => gaussianReal 0 1) i).integrable_comp_of_integrable hf
  have h1 : Integrable (fun x : ℝ => x) (gaussianReal 0 1) := (memLp_id_gaussianReal 1).integrable (by norm_num)
  have h2 : Integrable (fun x : ℝ => x * x) (gaussianReal 0 1) := by
    have := (memLp_id_gaussianReal (μ := 0) (v := 1) 2).integrable_sq
    simpa [sq] using this
  have hm : ∫ x, x ∂(gaussianReal 0 1) = 0 := integral_id_gaussianReal
  have hv : ∫ x, x * x ∂(gaussianReal 0 1) = 1 := by
    have h := variance_fun_id_gaussianReal (μ := 0) (v := 1)
    rw [variance_eq_integral (by fun_prop), hm] at h
    simpa [sq] using h
  have hind := iIndepFun_infinitePi (P := fun _ : ℕ => gaussianReal 0 1) (X := fun _ (x : ℝ) => x) (fun _ => measurable_id)
  constructor
  · intro i j
    by_cases e : i = j
    · subst e
      exact hig _ h2 i
    · exact (hind.indepFun e).integrable_mul (hig _ h1 i) (hig _ h1 j)
  · intro i j
    by_cases e : i = j
    · subst e
      rw [if_pos rfl, hint (fun x => x * x) (by fun_prop) i, hv]
    · rw [if_neg e, (hind.indepFun e).integral_fun_mul_eq_mul_integral (hig _ h1 i).aestronglyMeasurable (hig _ h1 j).aestronglyMeasurable,
        hint (fun x => x) (by fun_prop) i, hm]
      simp

/-! ## Means -/

section
variable {Ω : Type} [MeasurableSpace Ω] {μ : Measure Ω} {z : ℕ → Ω → ℝ}

theorem White.pair (h : White μ z) (a b c d : ℝ) (p q r s : ℕ) :
    Integrable (fun ω => (a * z p ω + b * z q ω) * (c * z r ω + d * z s ω)) μ ∧
    ∫ ω, (a * z p ω + b * z q ω) * (c * z r ω + d * z s ω) ∂μ =
      a * c * (if p = r then 1 else 0) + a * d * (if p = s then 1 else 0) + b * c * (if q = r then 1 else 0) +
        b * d * (if q = s then 1 else 0) := by
  have e : (fun ω => (a * z p ω + b * z q ω) * (c * z r ω + d * z s ω)) = fun ω =>
      a * c * (z p ω * z r ω) + a * d * (z p ω * z s ω) + b * c * (z q ω * z r ω) + b * d * (z q ω * z s ω) := by
    funext ω; ring
  have i1 := (h.int p r).const_mul (a * c)
  have i2 := (h.int p s).const_mul (a * d)
  have i3 := (h.int q r).const_mul (b * c)
  have i4 := (h.int q s).const_mul (b * d)
  have j2 : Integrable (fun ω => a * c * (z p ω * z r ω) + a * d * (z p ω * z s ω)) μ := i1.add i2
  have j3 : Integrable (fun ω => a * c * (z p ω * z r ω) + a * d * (z p ω * z s ω) + b * c * (z q ω * z r ω)) μ := j2.add i3
  rw [e]
  refine ⟨j3.add i4, ?_⟩
  rw [integral_add j3 i4, integral_add j2 i3, integral_add i1 i2, integral_const_mul,
    integral_const_mul, integral_const_mul, integral_const_mul, h.cov, h.cov, h.cov, h.cov]

theorem mean_sum {f : ℕ → Ω → ℝ} {n : ℕ} {v D : ℝ} (h : ∀ i < n, Integrable (f i) μ ∧ ∫ ω, f i ω ∂μ = v) :
    ∫ ω, (∑ i ∈ Finset.range n, f i ω) / D ∂μ = n * v / D := by
  rw [integral_div, integral_finsetSum _ fun i hi => (h i (Finset.mem_range.mp hi)).1,
    Finset.sum_congr rfl fun i hi => (h i (Finset.mem_range.mp hi)).2, Finset.sum_const, Finset.card_range, nsmul_eq_mul]

end

theorem pos_mono (M : ℤ) {a b : ℕ} (h : a ≤ b) : pos M a ≤ pos M b := by
  unfold pos
  exact Finset.sum_le_sum_of_subset fun i hi => by
    rw [Finset.mem_range] at hi ⊢
    omega

theorem pos_lt (M : ℤ) {l N i : ℕ} (hl : l < N) (hi : i < comps M l) : pos M l + i < pos M N := by
  have := pos_mono M (show l + 1 ≤ N by omega)
  rw [pos_succ] at this
  omega

theorem idx_ne (i : ℕ) : idxG i ≠ idxC i := by
  unfold idxG idxC
  split <;> omega

theorem extract_get {a b : Alm ℂ} {x y : ℕ → ℕ → ℝ} (ha : a.WF) (hb : b.WF) (hc : conformable a b) (hx : Holds a x) (hy : Holds b y)
    {sp : List ℝ} (h : extractCross a b = ok sp) {l : ℕ} (hl : (l : ℤ) ≤ a.lmax) :
    sp.getD l 0 = (∑ i ∈ Finset.range (comps a.mmax l), x l i * y l i) / (2 * l + 1) := by
  obtain ⟨tt, h1, h2, h3⟩ := (C50_value a b ha hb).1 hc
  rw [h] at h1
  cases h1
  rw [← cross_flat ha hc hx hy hl]
  have h4 := rd_eq_ok.mp (h3 l hl)
  rw [List.getD_eq_getElem?_getD]
  simp only [Int.toNat_natCast] at h4
  rw [h4.2]
  rfl

/-! ## C69 -/

/-- C69: `create_alm` consumes one number for each real component, in the order of the degrees and, within a degree, of the
orders; the coefficient of order zero is real, `√C_l` times the number drawn for it; the coefficient of order `m > 0` is
`√C_l / √2` times the pair drawn for it.  Every stored coefficient is overwritten, nothing else is touched. -/
theorem C69_values (next : G → ℝ × G) (g : G) (tt : List ℝ) (a : Alm ℂ) (ha : a.WF) (hlen : a.lmax < tt.length) :
    ∃ g' a', createAlm next tt g a = ok (g', a') ∧ a'.WF ∧ a'.lmax = a.lmax ∧ a'.mmax = a.mmax ∧
      g' = after next g (pos a.mmax (a.lmax + 1).toNat) ∧
      ∀ l m : ℕ, (m : ℤ) ≤ a.mmax → m ≤ l → (l : ℤ) ≤ a.lmax → ∃ c, rd tt l = ok c ∧
        a'.get l m = ok (if m = 0 then ((√c * out next g (pos a.mmax l) : ℝ) : ℂ)
          else ⟨√c * out next g (pos a.mmax l + (2 * m - 1)) / √2, √c * out next g (pos a.mmax l + 2 * m) / √2⟩) := by
  obtain ⟨g', a', h1, h2, h3, h4, h5, h6⟩ := createAlm_ok next g tt a ha hlen
  refine ⟨g', a', h1, h3, h4, h5, h2, ?_⟩
  intro l m hm hml hl
  have hlt : l < tt.length := by omega
  refine ⟨_, rd_nat hlt, ?_⟩
  rw [h6 l m (by omega) hml (by omega)]
  unfold compT
  have e : tt.getD l 0 = tt[l] := by simp [hlt]
  simp only [e, zero_add, add_zero]

/-- C69: the same seed gives the same sky, and the sky does not depend on what the coefficients held before the call. -/
theorem C69_reproducible (next : G → ℝ × G) (g : G) (tt : List ℝ) (a b : Alm ℂ) (ha : a.WF) (hb : b.WF) (hc : conformable a b)
    (hlen : a.lmax < tt.length) : createAlm next tt g a = createAlm next tt g b := by
  obtain ⟨cl, cm⟩ := hc
  obtain ⟨g1, a1, h1, h2, h3, h4, h5, h6⟩ := createAlm_ok next g tt a ha hlen
  obtain ⟨g2, a2, k1, k2, k3, k4, k5, k6⟩ := createAlm_ok next g tt b hb (by omega)
  rw [h1, k1, h2, k2, cl, cm]
  refine congrArg ok (Prod.ext rfl ?_)
  show a1 = a2
  refine Alm.ext_get h3 k3 (by omega) (by omega) ?_
  intro l m hv
  obtain ⟨v1, v2, v3, v4⟩ := hv
  obtain ⟨l, rfl⟩ := Int.eq_ofNat_of_zero_le (show 0 ≤ l by omega)
  obtain ⟨m, rfl⟩ := Int.eq_ofNat_of_zero_le v1
  rw [h6 l m v2 (by omega) v4, k6 l m (by omega) (by omega) (by omega), cm]

/-- C69: the mean of the extracted spectrum over an ideal generator is the given spectrum times the fraction of the `2l+1`
components that are stored: exactly the given spectrum at every degree up to `mmax`. -/
theorem C69_expected {Ω : Type} [MeasurableSpace Ω] (μ : Measure Ω) (next : G → ℝ × G) (g : Ω → G)
    (hw : White μ fun n ω => out next (g ω) n) (tt : List ℝ) (a : Alm ℂ) (ha : a.WF) (hlen : a.lmax < tt.length)
    (hpos : ∀ x ∈ tt, 0 ≤ x) :
    ∃ R : Ω → List ℝ, (∀ ω, ∃ g' a', createAlm next tt (g ω) a = ok (g', a') ∧ extractCross a' a' = ok (R ω)) ∧
      ∀ l : ℕ, (l : ℤ) ≤ a.lmax → ∃ c, rd tt l = ok c ∧
        ∫ ω, (R ω).getD l 0 ∂μ = (1 + 2 * min l a.mmax.toNat : ℕ) / (2 * l + 1) * c ∧
        ((l : ℤ) ≤ a.mmax → ∫ ω, (R ω).getD l 0 ∂μ = c) := by
  have h0 := ha.1
  choose g' a' h1 h2 h3 h4 h5 h6 using fun ω => createAlm_ok next (g ω) tt a ha hlen
  choose R r1 r2 r3 using fun ω => (C50_value (a' ω) (a' ω) (h3 ω) (h3 ω)).1 ⟨rfl, rfl⟩
  refine ⟨R, fun ω => ⟨_, _, h1 ω, r1 ω⟩, ?_⟩
  intro l hl
  have hlt : l < tt.length := by omega
  have hc : 0 ≤ tt[l] := hpos _ (List.getElem_mem hlt)
  have e : tt.getD l 0 = tt[l] := by simp [hlt]
  have hint : ∫ ω, (R ω).getD l 0 ∂μ = (comps a.mmax l : ℕ) * tt[l] / (2 * l + 1) := by
    have hv : (fun ω => (R ω).getD l 0) = fun ω => (∑ i ∈ Finset.range (comps a.mmax l),
        (√tt[l] * out next (g ω) (pos a.mmax l + i) + 0 * out next (g ω) 0) *
          (√tt[l] * out next (g ω) (pos a.mmax l + i) + 0 * out next (g ω) 0)) / (2 * l + 1) := by
      funext ω
      rw [extract_get (h3 ω) (h3 ω) ⟨rfl, rfl⟩ (h6 ω) (h6 ω) (r1 ω) (by rw [h4]; exact hl), h5]
      congr 1
      apply Finset.sum_congr rfl
      intro i _
      unfold compT
      simp only [e, zero_add, zero_mul, add_zero]
    rw [hv]
    apply mean_sum
    intro i _
    obtain ⟨p1, p2⟩ := hw.pair (√tt[l]) 0 (√tt[l]) 0 (pos a.mmax l + i) 0 (pos a.mmax l + i) 0
    refine ⟨p1, ?_⟩
    rw [p2, if_pos rfl, Real.mul_self_sqrt hc]
    ring
  have hcomp : comps a.mmax l = 1 + 2 * min l a.mmax.toNat := by unfold comps; omega
  refine ⟨tt[l], rd_nat hlt, ?_, ?_⟩
  · rw [hint, hcomp]
    ring
  · intro hlm
    rw [hint, hcomp, show min l a.mmax.toNat = l by omega]
    have : (2 * (l : ℝ) + 1) ≠ 0 := by positivity
    push_cast
    field_simp
    ring

/-- C69: the size of the spectrum is not checked: a spectrum that ends below the highest degree of the coefficients is read
behind its end. -/
theorem C69_short_spectrum (next : G → ℝ × G) (g : G) (tt : List ℝ) (a : Alm ℂ) (ha : a.WF) (hlen : (tt.length : ℤ) ≤ a.lmax) :
    (createAlm next tt g a).IsUB := by
  have h0 := ha.1
  have key : ∀ n : ℕ, tt.length < n → (n : ℤ) ≤ a.lmax + 1 → (forN n (rowT next tt) (g, a)).IsUB := by
    intro n
    induction n with
    | zero => intro h; omega
    | succ n ih =>
      intro h h'
      rw [forN_succ]
      by_cases hn : tt.length < n
      · have := ih hn (by push_cast at h'; omega)
        revert this
        cases forN n (rowT next tt) (g, a) <;> simp [IsUB]
      · have hn' : n = tt.length := by omega
        subst hn'
        obtain ⟨s, h1, -⟩ := forN_inv tt.length (rowT next tt) (g, a)
          (fun l s => s.1 = after next g (pos a.mmax l) ∧
            Upto a s.2 l 0 (val (compT (out next g) a.mmax (fun l => √(tt.getD l 0)) 0)))
          ⟨rfl, Upto.start ha _⟩ (by
            rintro l s hl ⟨i1, i2⟩
            have := rowT_ok next g tt a (fun l => √(tt.getD l 0)) (l := l) (by omega) h0 (rd_nat hl) (by simp [hl]) i1 i2
            simpa using this)
        rw [h1, ok_bind]
        unfold rowT
        rw [rd_ub (Or.inr le_rfl)]
        trivial
  exact key _ (by omega) (by omega)

/-! ### The polarised version -/

/-- All six spectra reach degree `L`. -/
structure Long (sp : Spec) (L : ℤ) : Prop where
  tt : L < sp.tt.length
  gg : L < sp.gg.length
  cc : L < sp.cc.length
  tg : L < sp.tg.length

/-- The spectra at degree `l` violate `TG² ≤ TT GG` by at most `1e-8 |GG|`. -/
def Acc (sp : Spec) (l : ℕ) : Prop :=
  sp.tt.getD l 0 ≠ 0 → sp.tg.getD l 0 ^ 2 / sp.tt.getD l 0 - sp.gg.getD l 0 ≤ 1e-8 * |sp.gg.getD l 0|

/-- The uncorrelated part of the gradient field. -/
noncomputable def rG (sp : Spec) (l : ℕ) : ℝ :=
  if sp.tt.getD l 0 = 0 then 0 else √(max 0 (sp.gg.getD l 0 - sp.tg.getD l 0 ^ 2 / sp.tt.getD l 0))

/-- The curl field. -/
noncomputable def rC (sp : Spec) (l : ℕ) : ℝ := if sp.tt.getD l 0 = 0 then 0 else √(sp.cc.getD l 0)

theorem rd_getD' {xs : List ℝ} {i : ℕ} (h : i < xs.length) : rd xs i = ok (xs.getD i 0) := by
  rw [rd_nat h]
  simp [h]

theorem rms1_eq {sp : Spec} {L : ℤ} (h : Long sp L) {l : ℕ} (hl : (l : ℤ) ≤ L) :
    rms1 sp l = ok (√(sp.tt.getD l 0), sp.tg.getD l 0 / √(sp.tt.getD l 0)) := by
  have h1 := h.tt
  have h2 := h.tg
  unfold rms1
  rw [rd_getD' (show l < sp.tt.length by omega), ok_bind]
  by_cases e : sp.tt.getD l 0 = 0
  · rw [if_neg (not_not.mpr e), e]
    simp
  · rw [if_pos e, rd_getD' (show l < sp.tg.length by omega), ok_bind]

theorem clip_ok {v gg : ℝ} (h : -v ≤ 1e-8 * |gg|) : clip v gg = ok (max 0 v) := by
  unfold clip
  by_cases hv : v ≤ 0
  · rw [if_pos hv, if_pos (by rw [abs_of_nonpos hv]; exact h), max_eq_left hv]
  · rw [if_neg hv, max_eq_right (le_of_not_ge hv)]

theorem clip_throw {v gg : ℝ} (h : ¬ -v ≤ 1e-8 * |gg|) : (clip v gg).IsThrow := by
  have hg : 0 ≤ 1e-8 * |gg| := mul_nonneg (by norm_num) (abs_nonneg _)
  have hv : v ≤ 0 := by linarith
  unfold clip
  rw [if_pos hv, if_neg (by rw [abs_of_nonpos hv]; exact h)]
  trivial

theorem rms2_eq {sp : Spec} {L : ℤ} (h : Long sp L) {l : ℕ} (hl : (l : ℤ) ≤ L) (ha : Acc sp l) :
    rms2 sp l = ok (rG sp l, rC sp l) := by
  have h1 := h.tt
  have h2 := h.tg
  have h3 := h.gg
  have h4 := h.cc
  unfold rms2 rG rC
  rw [rd_getD' (show l < sp.tt.length by omega), ok_bind]
  by_cases e : sp.tt.getD l 0 = 0
  · rw [if_neg (not_not.mpr e), if_pos e, if_pos e]
  · have e2 : sp.gg.getD l 0 - sp.tg.getD l 0 / sp.tt.getD l 0 * sp.tg.getD l 0 =
        sp.gg.getD l 0 - sp.tg.getD l 0 ^ 2 / sp.tt.getD l 0 := by ring
    rw [if_pos e, if_neg e, if_neg e, rd_getD' (show l < sp.gg.length by omega), ok_bind, rd_getD' (show l < sp.tg.length by omega),
      ok_bind, e2, clip_ok (by have := ha e; linarith), ok_bind, rd_getD' (show l < sp.cc.length by omega), ok_bind]

theorem rms2_throw {sp : Spec} {L : ℤ} (h : Long sp L) {l : ℕ} (hl : (l : ℤ) ≤ L) (ha : ¬Acc sp l) : (rms2 sp l).IsThrow := by
  have h1 := h.tt
  have h2 := h.tg
  have h3 := h.gg
  unfold Acc at ha
  push Not at ha
  obtain ⟨e, ha⟩ := ha
  have e2 : sp.gg.getD l 0 - sp.tg.getD l 0 / sp.tt.getD l 0 * sp.tg.getD l 0 =
      sp.gg.getD l 0 - sp.tg.getD l 0 ^ 2 / sp.tt.getD l 0 := by ring
  have h5 : (clip (sp.gg.getD l 0 - sp.tg.getD l 0 ^ 2 / sp.tt.getD l 0) (sp.gg.getD l 0)).IsThrow :=
    clip_throw (by push Not; linarith)
  unfold rms2
  rw [rd_getD' (show l < sp.tt.length by omega), ok_bind, if_pos e, rd_getD' (show l < sp.gg.length by omega), ok_bind,
    rd_getD' (show l < sp.tg.length by omega), ok_bind, e2]
  revert h5
  cases clip (sp.gg.getD l 0 - sp.tg.getD l 0 ^ 2 / sp.tt.getD l 0) (sp.gg.getD l 0) <;> simp [IsThrow]

/-- C69: `create_alm_pol` on conformable coefficients and long enough spectra either draws its numbers and returns, or throws;
it returns exactly when `TG² ≤ TT GG` holds up to `1e-8 |GG|` at every degree with `TT ≠ 0`.  On return the components of the
three fields are: `√TT ζ`, `TG/√TT ζ + √(GG - TG²/TT) ζ'`, `√CC ζ''`, where `ζ` are the numbers of the first pass, `ζ'` and
`ζ''` those of the second; both last terms are zero where `TT = 0`. -/
theorem C69_pol_values (next : G → ℝ × G) (g : G) (sp : Spec) (t e b : Alm ℂ) (ht : t.WF) (he : e.WF) (hb : b.WF)
    (hce : conformable t e) (hcb : conformable t b) (hlen : Long sp t.lmax) :
    ((∀ l : ℕ, (l : ℤ) ≤ t.lmax → Acc sp l) → ∃ g' t' e' b', createPol next sp g t e b = ok (g', t', e', b') ∧
      g' = after next g (3 * pos t.mmax (t.lmax + 1).toNat) ∧
      (t'.WF ∧ conformable t t') ∧ (e'.WF ∧ conformable t e') ∧ (b'.WF ∧ conformable t b') ∧
      Holds t' (fun l i => √(sp.tt.getD l 0) * out next g (pos t.mmax l + i)) ∧
      Holds e' (fun l i => sp.tg.getD l 0 / √(sp.tt.getD l 0) * out next g (pos t.mmax l + i) +
        rG sp l * out next g (pos t.mmax (t.lmax + 1).toNat + 2 * pos t.mmax l + idxG i)) ∧
      Holds b' (fun l i => rC sp l * out next g (pos t.mmax (t.lmax + 1).toNat + 2 * pos t.mmax l + idxC i))) ∧
    ((∃ l : ℕ, (l : ℤ) ≤ t.lmax ∧ ¬Acc sp l) → (createPol next sp g t e b).IsThrow) := by
  constructor
  · intro hacc
    obtain ⟨g', t', e', b', h1, h2, h3, h4, h5, h6, h7, h8⟩ := createPol_ok next g sp t e b ht he hb hce hcb
      (fun l => √(sp.tt.getD l 0)) (fun l => sp.tg.getD l 0 / √(sp.tt.getD l 0)) (rG sp) (rC sp)
      (fun l hl => rms1_eq hlen hl) (fun l hl => rms2_eq hlen hl (hacc l hl))
    refine ⟨g', t', e', b', h1, h2, h3, h4, h5, ?_, h7, h8⟩
    unfold compT at h6
    simpa using h6
  · rintro ⟨l0, hl0, hn0⟩
    have h0 := ht.1
    have hlm := ht.2.1
    obtain ⟨cl, cm⟩ := hce
    obtain ⟨dl, dm⟩ := hcb
    obtain ⟨s, p1, p2, p3, p4⟩ := forN_inv (t.lmax + 1).toNat (row1 next sp t.mmax) (g, t, e)
      (fun l s => s.1 = after next g (pos t.mmax l) ∧
        Upto t s.2.1 l 0 (val (compT (out next g) t.mmax (fun l => √(sp.tt.getD l 0)) 0)) ∧
        Upto e s.2.2 l 0 (val (compT (out next g) t.mmax (fun l => sp.tg.getD l 0 / √(sp.tt.getD l 0)) 0)))
      ⟨rfl, Upto.start ht _, Upto.start he _⟩ (by
        rintro l s hl ⟨i1, i2, i3⟩
        have := row1_ok next g sp t e (fun l => √(sp.tt.getD l 0)) (fun l => sp.tg.getD l 0 / √(sp.tt.getD l 0)) (l := l) (by omega) h0
          ⟨cl, cm⟩ (rms1_eq hlen (by omega)) i1 i2 i3
        simpa using this)
    rw [show (((t.lmax + 1).toNat : ℕ) : ℤ) = t.lmax + 1 by omega] at p3 p4
    have el : s.2.2.lmax = t.lmax := by rw [p4.lm, cl]
    have em : s.2.2.mmax = t.mmax := by rw [p4.mm, cm]
    -- the first degree with unacceptable spectra
    classical
    have hex : ∃ l : ℕ, (l : ℤ) ≤ t.lmax ∧ ¬Acc sp l := ⟨l0, hl0, hn0⟩
    obtain ⟨hj1, hj2⟩ := Nat.find_spec hex
    have hmin : ∀ i < Nat.find hex, Acc sp i := by
      intro i hi
      by_contra hc
      exact Nat.find_min hex hi ⟨by omega, hc⟩
    generalize Nat.find hex = j at hj1 hj2 hmin
    have key : ∀ n : ℕ, j < n → (n : ℤ) ≤ t.lmax + 1 → (forN n (row2 next sp t.mmax) (s.1, s.2.2, b)).IsThrow := by
      intro n
      induction n with
      | zero => intro h; omega
      | succ n ih =>
        intro h h'
        rw [forN_succ]
        by_cases hn : j < n
        · have := ih hn (by push_cast at h'; omega)
          revert this
          cases forN n (row2 next sp t.mmax) (s.1, s.2.2, b) <;> simp [IsThrow]
        · have hn' : n = j := by omega
          subst hn'
          obtain ⟨u, q1, -⟩ := forN_inv n (row2 next sp t.mmax) (s.1, s.2.2, b)
            (fun l u => u.1 = after next g (pos t.mmax (t.lmax + 1).toNat + 2 * pos t.mmax l) ∧
              Upto s.2.2 u.2.1 l 0 (val (compG (out next g) t.mmax (fun l => sp.tg.getD l 0 / √(sp.tt.getD l 0)) (rG sp)
                (pos t.mmax (t.lmax + 1).toNat))) ∧
              Upto b u.2.2 l 0 (val (compC (out next g) t.mmax (rC sp) (pos t.mmax (t.lmax + 1).toNat))))
            ⟨p2, Upto.start p4.wf _, Upto.start hb _⟩ (by
              rintro l u hl ⟨i1, i2, i3⟩
              have := row2_ok next g sp s.2.2 b (fun l => sp.tg.getD l 0 / √(sp.tt.getD l 0)) (rG sp) (rC sp)
                (pos t.mmax (t.lmax + 1).toNat) (l := l) (s := u) (by omega) (by omega)
                ⟨by omega, by omega⟩ (rms2_eq hlen (by omega) (hmin l hl)) (by
                  intro i j hv
                  rw [em]
                  unfold Valid at hv
                  exact p4.new i j (by unfold Valid; omega) (by omega)) (by rw [em]; exact i1) (by rw [em]; exact i2) (by rw [em]; exact i3)
              rw [em] at this
              simpa using this)
          rw [q1, ok_bind]
          unfold row2
          have := rms2_throw hlen hj1 hj2
          revert this
          cases rms2 sp n <;> simp [IsThrow]
    unfold createPol
    rw [p1, ok_bind]
    have := key _ (by omega) (le_of_eq (show (((t.lmax + 1).toNat : ℕ) : ℤ) = t.lmax + 1 by omega))
    revert this
    cases forN (t.lmax + 1).toNat (row2 next sp t.mmax) (s.1, s.2.2, b) <;> simp [IsThrow]

/-- C69 (part): the mean of the six extracted spectra over an ideal generator.  At a degree with `TT ≠ 0` they are the given
ones (`TC` and `GC`: zero), times the stored fraction of the components; `GG` is raised to `TG²/TT` if it is smaller.  At a
degree with `TT = 0` all six are zero, whatever `GG` and `CC` are: this is what is missing from `C69_Full`. -/
theorem C69_pol_expected_partial {Ω : Type} [MeasurableSpace Ω] (μ : Measure Ω) (next : G → ℝ × G) (g : Ω → G)
    (hw : White μ fun n ω => out next (g ω) n) (sp : Spec) (t e b : Alm ℂ) (ht : t.WF) (he : e.WF) (hb : b.WF)
    (hce : conformable t e) (hcb : conformable t b) (hlen : Long sp t.lmax) (hacc : ∀ l : ℕ, (l : ℤ) ≤ t.lmax → Acc sp l)
    (hpt : ∀ x ∈ sp.tt, 0 ≤ x) (hpc : ∀ x ∈ sp.cc, 0 ≤ x) :
    ∃ R : Ω → Spec, (∀ ω, ∃ g' t' e' b', createPol next sp (g ω) t e b = ok (g', t', e', b') ∧ extractPol t' e' b' = ok (R ω)) ∧
      ∀ l : ℕ, (l : ℤ) ≤ t.lmax → ∀ k : ℝ, k = (1 + 2 * min l t.mmax.toNat : ℕ) / (2 * l + 1) →
        (sp.tt.getD l 0 ≠ 0 →
          ∫ ω, (R ω).tt.getD l 0 ∂μ = k * sp.tt.getD l 0 ∧
          ∫ ω, (R ω).gg.getD l 0 ∂μ = k * max (sp.gg.getD l 0) (sp.tg.getD l 0 ^ 2 / sp.tt.getD l 0) ∧
          ∫ ω, (R ω).cc.getD l 0 ∂μ = k * sp.cc.getD l 0 ∧
          ∫ ω, (R ω).tg.getD l 0 ∂μ = k * sp.tg.getD l 0 ∧
          ∫ ω, (R ω).tc.getD l 0 ∂μ = 0 ∧ ∫ ω, (R ω).gc.getD l 0 ∂μ = 0) ∧
        (sp.tt.getD l 0 = 0 → ∀ ω, (R ω).tt.getD l 0 = 0 ∧ (R ω).gg.getD l 0 = 0 ∧ (R ω).cc.getD l 0 = 0 ∧
          (R ω).tg.getD l 0 = 0 ∧ (R ω).tc.getD l 0 = 0 ∧ (R ω).gc.getD l 0 = 0) := by
  have h0 := ht.1
  set P := pos t.mmax (t.lmax + 1).toNat with hP
  choose g' t' e' b' h1 h2 h3 h4 h5 h6 h7 h8 using fun ω => (C69_pol_values next (g ω) sp t e b ht he hb hce hcb hlen).1 hacc
  have cte : ∀ ω, conformable (t' ω) (e' ω) := fun ω =>
    ⟨(h3 ω).2.1.symm.trans (h4 ω).2.1, (h3 ω).2.2.symm.trans (h4 ω).2.2⟩
  have ctb : ∀ ω, conformable (t' ω) (b' ω) := fun ω =>
    ⟨(h3 ω).2.1.symm.trans (h5 ω).2.1, (h3 ω).2.2.symm.trans (h5 ω).2.2⟩
  have ceb : ∀ ω, conformable (e' ω) (b' ω) := fun ω =>
    ⟨(h4 ω).2.1.symm.trans (h5 ω).2.1, (h4 ω).2.2.symm.trans (h5 ω).2.2⟩
  choose R r1 r2 r3 r4 r5 r6 r7 using fun ω => (C50_pol_value (t' ω) (e' ω) (b' ω) (h3 ω).1 (h4 ω).1 (h5 ω).1).1 (cte ω) (ctb ω)
  refine ⟨R, fun ω => ⟨_, _, _, _, h1 ω, r1 ω⟩, ?_⟩
  intro l hl k hk
  have hcomp : comps t.mmax l = 1 + 2 * min l t.mmax.toNat := by unfold comps; omega
  rw [← hcomp] at hk
  -- the six entries as sums over components
  have lt' : ∀ ω, (l : ℤ) ≤ (t' ω).lmax := fun ω => by rw [← (h3 ω).2.1]; exact hl
  have le' : ∀ ω, (l : ℤ) ≤ (e' ω).lmax := fun ω => by rw [← (h4 ω).2.1]; exact hl
  have lb' : ∀ ω, (l : ℤ) ≤ (b' ω).lmax := fun ω => by rw [← (h5 ω).2.1]; exact hl
  have v1 := fun ω => extract_get (h3 ω).1 (h3 ω).1 ⟨rfl, rfl⟩ (h6 ω) (h6 ω) (r2 ω) (lt' ω)
  have v2 := fun ω => extract_get (h4 ω).1 (h4 ω).1 ⟨rfl, rfl⟩ (h7 ω) (h7 ω) (r3 ω) (le' ω)
  have v3 := fun ω => extract_get (h5 ω).1 (h5 ω).1 ⟨rfl, rfl⟩ (h8 ω) (h8 ω) (r4 ω) (lb' ω)
  have v4 := fun ω => extract_get (h3 ω).1 (h4 ω).1 (cte ω) (h6 ω) (h7 ω) (r5 ω) (lt' ω)
  have v5 := fun ω => extract_get (h3 ω).1 (h5 ω).1 (ctb ω) (h6 ω) (h8 ω) (r6 ω) (lt' ω)
  have v6 := fun ω => extract_get (h4 ω).1 (h5 ω).1 (ceb ω) (h7 ω) (h8 ω) (r7 ω) (le' ω)
  simp only [← (h3 _).2.2] at v1 v4 v5
  simp only [← (h4 _).2.2] at v2 v6
  simp only [← (h5 _).2.2] at v3
  have mean : ∀ (f : Ω → ℝ) (a1 a2 c1 c2 : ℝ) (p q r s : ℕ → ℕ) (v : ℝ),
      (∀ ω, f ω = (∑ i ∈ Finset.range (comps t.mmax l), (a1 * out next (g ω) (p i) + a2 * out next (g ω) (q i)) *
        (c1 * out next (g ω) (r i) + c2 * out next (g ω) (s i))) / (2 * l + 1)) →
      (∀ i < comps t.mmax l, a1 * c1 * (if p i = r i then 1 else 0) + a1 * c2 * (if p i = s i then 1 else 0) +
        a2 * c1 * (if q i = r i then 1 else 0) + a2 * c2 * (if q i = s i then 1 else 0) = v) →
      ∫ ω, f ω ∂μ = k * v := by
    intro f a1 a2 c1 c2 p q r s v hf hv
    rw [funext hf, mean_sum (v := v)]
    · rw [hk]; ring
    · intro i hi
      obtain ⟨w1, w2⟩ := hw.pair a1 a2 c1 c2 (p i) (q i) (r i) (s i)
      exact ⟨w1, w2.trans (hv i hi)⟩
  have n1 : ∀ i < comps t.mmax l, ∀ n : ℕ, pos t.mmax l + i ≠ P + n := by
    intro i hi n
    have := pos_lt t.mmax (N := (t.lmax + 1).toNat) (show l < _ by omega) hi
    omega
  have n2 : ∀ i, P + 2 * pos t.mmax l + idxG i ≠ P + 2 * pos t.mmax l + idxC i := by
    intro i
    have := idx_ne i
    omega
  constructor
  · intro hne
    have hlt : l < sp.tt.length := by have := hlen.tt; omega
    have hlc : l < sp.cc.length := by have := hlen.cc; omega
    have ht0 : 0 ≤ sp.tt.getD l 0 := by
      have : sp.tt.getD l 0 = sp.tt[l] := by simp [hlt]
      rw [this]; exact hpt _ (List.getElem_mem hlt)
    have hc0 : 0 ≤ sp.cc.getD l 0 := by
      have : sp.cc.getD l 0 = sp.cc[l] := by simp [hlc]
      rw [this]; exact hpc _ (List.getElem_mem hlc)
    have st : √(sp.tt.getD l 0) * √(sp.tt.getD l 0) = sp.tt.getD l 0 := Real.mul_self_sqrt ht0
    have st0 : √(sp.tt.getD l 0) ≠ 0 := by
      intro hz
      rw [hz] at st
      exact hne (by linarith)
    have hrC : rC sp l * rC sp l = sp.cc.getD l 0 := by unfold rC; rw [if_neg hne, Real.mul_self_sqrt hc0]
    have hrG : rG sp l * rG sp l = max 0 (sp.gg.getD l 0 - sp.tg.getD l 0 ^ 2 / sp.tt.getD l 0) := by
      unfold rG; rw [if_neg hne, Real.mul_self_sqrt (le_max_left _ _)]
    have hra : sp.tg.getD l 0 / √(sp.tt.getD l 0) * (sp.tg.getD l 0 / √(sp.tt.getD l 0)) = sp.tg.getD l 0 ^ 2 / sp.tt.getD l 0 := by
      rw [div_mul_div_comm, st, sq]
    have hta : √(sp.tt.getD l 0) * (sp.tg.getD l 0 / √(sp.tt.getD l 0)) = sp.tg.getD l 0 := by field_simp
    refine ⟨?_, ?_, ?_, ?_, ?_, ?_⟩
    · refine mean _ (√(sp.tt.getD l 0)) 0 (√(sp.tt.getD l 0)) 0 (fun i => pos t.mmax l + i) (fun _ => 0)
        (fun i => pos t.mmax l + i) (fun _ => 0) _ (fun ω => ?_) (fun i hi => ?_)
      · rw [v1]; simp only [zero_mul, add_zero]
      · rw [if_pos rfl, st]; ring
    · refine mean _ (sp.tg.getD l 0 / √(sp.tt.getD l 0)) (rG sp l) (sp.tg.getD l 0 / √(sp.tt.getD l 0)) (rG sp l)
        (fun i => pos t.mmax l + i) (fun i => P + 2 * pos t.mmax l + idxG i)
        (fun i => pos t.mmax l + i) (fun i => P + 2 * pos t.mmax l + idxG i) _ (fun ω => ?_) (fun i hi => ?_)
      · rw [v2]
      · have m1 := n1 i hi (2 * pos t.mmax l + idxG i)
        rw [← add_assoc] at m1
        rw [if_pos rfl, if_pos rfl, if_neg m1, if_neg (Ne.symm m1), mul_one, mul_one, hra, hrG, mul_zero, mul_zero, add_zero, add_zero]
        rcases le_total (sp.gg.getD l 0 - sp.tg.getD l 0 ^ 2 / sp.tt.getD l 0) 0 with hle | hle
        · rw [max_eq_left hle, max_eq_right (by linarith)]; ring
        · rw [max_eq_right hle, max_eq_left (by linarith)]; ring
    · refine mean _ (rC sp l) 0 (rC sp l) 0 (fun i => P + 2 * pos t.mmax l + idxC i) (fun _ => 0)
        (fun i => P + 2 * pos t.mmax l + idxC i) (fun _ => 0) _ (fun ω => ?_) (fun i hi => ?_)
      · rw [v3]; simp only [hP, zero_mul, add_zero]
      · rw [if_pos rfl, hrC]; ring
    · refine mean _ (√(sp.tt.getD l 0)) 0 (sp.tg.getD l 0 / √(sp.tt.getD l 0)) (rG sp l)
        (fun i => pos t.mmax l + i) (fun _ => 0)
        (fun i => pos t.mmax l + i) (fun i => P + 2 * pos t.mmax l + idxG i) _ (fun ω => ?_) (fun i hi => ?_)
      · rw [v4]; simp only [hP, zero_mul, add_zero]
      · have m1 := n1 i hi (2 * pos t.mmax l + idxG i)
        rw [← add_assoc] at m1
        rw [if_pos rfl, if_neg m1, hta]; ring
    · refine Eq.trans ?_ (mul_zero k)
      refine mean _ (√(sp.tt.getD l 0)) 0 (rC sp l) 0 (fun i => pos t.mmax l + i) (fun _ => 0)
        (fun i => P + 2 * pos t.mmax l + idxC i) (fun _ => 0) _ (fun ω => ?_) (fun i hi => ?_)
      · rw [v5]; simp only [hP, zero_mul, add_zero]
      · have m1 := n1 i hi (2 * pos t.mmax l + idxC i)
        rw [← add_assoc] at m1
        rw [if_neg m1]; ring
    · refine Eq.trans ?_ (mul_zero k)
      refine mean _ (sp.tg.getD l 0 / √(sp.tt.getD l 0)) (rG sp l) (rC sp l) 0 (fun i => pos t.mmax l + i)
        (fun i => P + 2 * pos t.mmax l + idxG i) (fun i => P + 2 * pos t.mmax l + idxC i) (fun _ => 0) _ (fun ω => ?_) (fun i hi => ?_)
      · rw [v6]; simp only [hP, zero_mul, add_zero]
      · have m1 := n1 i hi (2 * pos t.mmax l + idxC i)
        rw [← add_assoc] at m1
        rw [if_neg m1, if_neg (n2 i)]; ring
  · intro hz ω
    have z1 : rG sp l = 0 := by unfold rG; rw [if_pos hz]
    have z2 : rC sp l = 0 := by unfold rC; rw [if_pos hz]
    have z3 : √(sp.tt.getD l 0) = 0 := by rw [hz]; exact Real.sqrt_zero
    refine ⟨?_, ?_, ?_, ?_, ?_, ?_⟩
    · rw [v1]; simp only [z1, z2, z3, zero_mul, mul_zero, div_zero, add_zero, Finset.sum_const_zero, zero_div]
    · rw [v2]; simp only [z1, z2, z3, zero_mul, mul_zero, div_zero, add_zero, Finset.sum_const_zero, zero_div]
    · rw [v3]; simp only [z1, z2, z3, zero_mul, mul_zero, div_zero, add_zero, Finset.sum_const_zero, zero_div]
    · rw [v4]; simp only [z1, z2, z3, zero_mul, mul_zero, div_zero, add_zero, Finset.sum_const_zero, zero_div]
    · rw [v5]; simp only [z1, z2, z3, zero_mul, mul_zero, div_zero, add_zero, Finset.sum_const_zero, zero_div]
    · rw [v6]; simp only [z1, z2, z3, zero_mul, mul_zero, div_zero, add_zero, Finset.sum_const_zero, zero_div]

/-! ### The full claim -/

/-- C69, the full claim: for every set of spectra that passes the library's own consistency test, with vanishing `TC` and `GC`,
and every three conformable sets of coefficients with `mmax = lmax`, the call returns, and the mean of the extracted spectra
over an ideal generator is the given spectrum, entry by entry. -/
def C69_Full : Prop :=
  ∀ (Ω G : Type) (_ : MeasurableSpace Ω) (μ : Measure Ω) (next : G → ℝ × G) (g : Ω → G) (sp : Spec) (t e b : Alm ℂ),
    White μ (fun n ω => out next (g ω) n) → t.WF → e.WF → b.WF → conformable t e → conformable t b → t.mmax = t.lmax →
    Long sp t.lmax → consistent6 sp → (∀ x ∈ sp.tc, x = 0) → (∀ x ∈ sp.gc, x = 0) →
    ∃ R : Ω → Spec, (∀ ω, ∃ g' t' e' b', createPol next sp (g ω) t e b = ok (g', t', e', b') ∧ extractPol t' e' b' = ok (R ω)) ∧
      ∀ l : ℕ, (l : ℤ) ≤ t.lmax →
        ∫ ω, (R ω).tt.getD l 0 ∂μ = sp.tt.getD l 0 ∧ ∫ ω, (R ω).gg.getD l 0 ∂μ = sp.gg.getD l 0 ∧
        ∫ ω, (R ω).cc.getD l 0 ∂μ = sp.cc.getD l 0 ∧ ∫ ω, (R ω).tg.getD l 0 ∂μ = sp.tg.getD l 0 ∧
        ∫ ω, (R ω).tc.getD l 0 ∂μ = 0 ∧ ∫ ω, (R ω).gc.getD l 0 ∂μ = 0

/-- The ideal generator: reads off a sequence. -/
def nextSeq (s : ℕ → ℝ) : ℝ × (ℕ → ℝ) := (s 0, fun n => s (n + 1))

theorem out_nextSeq (s : ℕ → ℝ) (n : ℕ) : out nextSeq s n = s n := by
  have h : ∀ n, after nextSeq s n = fun k => s (k + n) := by
    intro n
    induction n with
    | zero => rfl
    | succ n ih =>
      rw [← after_succ, ih]
      funext k
      show s (k + 1 + n) = s (k + (n + 1))
      congr 1
      omega
  unfold out
  rw [h]
  show s (0 + n) = s n
  rw [zero_add]

/-- An ideal generator exists: independent standard normal numbers. -/
theorem white_seq : White (Measure.infinitePi fun _ : ℕ => gaussianReal 0 1) (fun n ω => out nextSeq ω n) := by
  simpa only [out_nextSeq] using white_gauss

/-- A monopole. -/
def mono : Alm ℂ := ⟨0, 0, [7]⟩

theorem mono_wf : mono.WF := ⟨le_rfl, le_rfl, rfl⟩

/-- C69: the full claim fails: with `TT = 0` and `GG = 1` the gradient field comes out as zero. -/
theorem C69_full_refuted : ¬C69_Full := by
  intro h
  let sp : Spec := ⟨[0], [1], [0], [0], [0], [0]⟩
  have hlong : Long sp mono.lmax := ⟨by decide, by decide, by decide, by decide⟩
  obtain ⟨R, h1, h2⟩ := h (ℕ → ℝ) (ℕ → ℝ) _ _ nextSeq (fun ω => ω) sp mono mono mono white_seq mono_wf mono_wf mono_wf
    ⟨rfl, rfl⟩ ⟨rfl, rfl⟩ rfl hlong (by
      intro l hl tt gg cc tg tc gc a1 a2 a3 a4 a5 a6
      have : l = 0 := by simpa [sp] using hl
      subst this
      cases a1; cases a2; cases a3; cases a4; cases a5; cases a6
      simp [sp]) (by simp [sp]) (by simp [sp])
  have hacc : ∀ l : ℕ, (l : ℤ) ≤ mono.lmax → Acc sp l := by
    intro l hl
    have : l = 0 := by simp only [mono] at hl; omega
    subst this
    intro hne
    exact absurd rfl hne
  obtain ⟨R', k1, k2⟩ := C69_pol_expected_partial _ nextSeq (fun ω : ℕ → ℝ => ω) white_seq sp mono mono mono mono_wf mono_wf mono_wf
    ⟨rfl, rfl⟩ ⟨rfl, rfl⟩ hlong hacc (by simp [sp]) (by simp [sp])
  have hR : R = R' := by
    funext ω
    obtain ⟨a1, a2, a3, a4, a5, a6⟩ := h1 ω
    obtain ⟨b1, b2, b3, b4, b5, b6⟩ := k1 ω
    rw [a5] at b5
    cases b5
    rw [a6] at b6
    injection b6
  have z := (k2 0 le_rfl _ rfl).2 rfl
  have hz := (h2 0 le_rfl).2.1
  rw [hR, funext fun ω => (z ω).2.1] at hz
  simp [sp] at hz

/-! ### Examples -/

/-- The hypotheses of `C69_values` and `C69_expected` are met by an expansion to degree two. -/
example : ∃ a : Alm ℂ, a.WF ∧ a.lmax = 2 ∧ a.lmax < ([1, 4, 9] : List ℝ).length ∧ ∀ x ∈ ([1, 4, 9] : List ℝ), 0 ≤ x := by
  refine ⟨⟨2, 2, [0, 0, 0, 0, 0, 0]⟩, ⟨by decide, by decide, by decide⟩, rfl, by norm_num, ?_⟩
  intro x hx
  simp at hx
  rcases hx with rfl | rfl | rfl <;> norm_num

/-- The hypotheses of the polarised theorems are met, with correlated fields. -/
example : ∃ (sp : Spec) (t : Alm ℂ), t.WF ∧ t.lmax = 1 ∧ Long sp t.lmax ∧ (∀ l : ℕ, (l : ℤ) ≤ t.lmax → Acc sp l) ∧
    (∀ x ∈ sp.tt, 0 ≤ x) ∧ (∀ x ∈ sp.cc, 0 ≤ x) ∧ sp.tg.getD 1 0 ≠ 0 ∧ rG sp 1 ≠ 0 := by
  refine ⟨⟨[1, 4], [1, 2], [1, 1], [0, 2], [0, 0], [0, 0]⟩, ⟨1, 1, [0, 0, 0]⟩, ⟨by decide, by decide, by decide⟩, rfl,
    ⟨by decide, by decide, by decide, by decide⟩, ?_, ?_, ?_, by norm_num, ?_⟩
  · intro l hl
    simp only at hl
    have : l = 0 ∨ l = 1 := by omega
    rcases this with rfl | rfl <;> intro _ <;> norm_num [List.getD]
  · intro x hx; simp at hx; rcases hx with rfl | rfl <;> norm_num
  · intro x hx; simp at hx; rcases hx with rfl | rfl <;> norm_num
  · unfold rG; norm_num [List.getD]

/-- Spectra that are rejected exist. -/
example : ∃ sp : Spec, Long sp 0 ∧ ¬Acc sp 0 := by
  refine ⟨⟨[1], [1], [1], [2], [0], [0]⟩, ⟨by decide, by decide, by decide, by decide⟩, ?_⟩
  intro h
  have := h (by norm_num [List.getD])
  norm_num [List.getD] at this

/-- The hypotheses of `C69_short_spectrum` are met. -/
example : mono.WF ∧ (([] : List ℝ).length : ℤ) ≤ mono.lmax := ⟨mono_wf, le_rfl⟩

end Verif.SkyGen
