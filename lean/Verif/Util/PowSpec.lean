import Verif.Api.ScaleL
import Verif.Num.WignerGen
import Mathlib.Analysis.Complex.Trigonometric
import Mathlib.Algebra.QuadraticDiscriminant
import Mathlib.Analysis.SpecialFunctions.Exp

/-!
# Angular power spectra (C50)

levels/Healpix_cxx/alm_powspec_tools.cc:152-286, powspec.cc:55-162.  Exact arithmetic.
-/

namespace Verif.PowSpec

open Verif Res Verif.Harm Verif.Num

/-- The statements for one degree, alm_powspec_tools.cc:160-164 (and :206-227 for each of the six spectra). -/
noncomputable def crossL (a1 a2 : Alm ℂ) (l : ℕ) : Res ℝ := do
  let x ← a1.get l 0
  let y ← a2.get l 0
  let s ← forN (min (l : ℤ) a1.mmax).toNat (fun k s => do
    let x ← a1.get l ((k : ℤ) + 1)
    let y ← a2.get l ((k : ℤ) + 1)
    ok (s + 2 * (x.re * y.re + x.im * y.im))) (x.re * y.re)
  ok (s / (2 * l + 1))

/-- `Alm_Base::conformable`, ls_alm.h:81-82. -/
def conformable (a b : Alm ℂ) : Prop := a.lmax = b.lmax ∧ a.mmax = b.mmax

instance (a b : Alm ℂ) : Decidable (conformable a b) := by unfold conformable; infer_instance

/-- The loop over degrees, alm_powspec_tools.cc:158-166; `tt[l]` is written in order, so writing is appending. -/
noncomputable def crossAll (a1 a2 : Alm ℂ) : Res (List ℝ) :=
  forN (a1.lmax + 1).toNat (fun l tt => do let v ← crossL a1 a2 l; ok (tt ++ [v])) []

/-- `extract_crosspowspec`, alm_powspec_tools.cc:152-168: the array handed to `PowSpec::Set`. -/
noncomputable def extractCross (a1 a2 : Alm ℂ) : Res (List ℝ) :=
  if conformable a1 a2 then crossAll a1 a2 else throw "a_lm are not conformable"

/-- `PowSpec`, ls_powspec.h: the arrays; the number of spectra is the number of arrays in use. -/
structure Spec where
  tt : List ℝ
  gg : List ℝ
  cc : List ℝ
  tg : List ℝ
  tc : List ℝ
  gc : List ℝ

/-- The six-spectra `extract_powspec`, alm_powspec_tools.cc:186-239 with `PowSpec::Set`, powspec.cc:133-140 (the size assertion
holds: `C50_pol_value`). -/
noncomputable def extractPol (t g c : Alm ℂ) : Res Spec :=
  if conformable t g ∧ conformable t c then do
    let tt ← crossAll t t
    let gg ← crossAll g g
    let cc ← crossAll c c
    let tg ← crossAll t g
    let tc ← crossAll t c
    let gc ← crossAll g c
    if tt.length = gg.length ∧ tt.length = cc.length ∧ tt.length = tg.length ∧ tt.length = tc.length ∧ tt.length = gc.length
    then ok ⟨tt, gg, cc, tg, tc, gc⟩ else throw "incorrect array sizes"
  else throw "a_lm are not conformable"

/-- `consistentAutoPowspec` for one spectrum, powspec.cc:76-77. -/
def consistent1 (tt : List ℝ) : Prop := ∀ l : ℕ, ∀ x, rd tt l = ok x → 0 ≤ x

/-- `consistentAutoPowspec` for six spectra, powspec.cc:76-91. -/
noncomputable def consistent6 (s : Spec) : Prop :=
  ∀ l : ℕ, l < s.tt.length → ∀ tt gg cc tg tc gc, rd s.tt l = ok tt → rd s.gg l = ok gg → rd s.cc l = ok cc →
    rd s.tg l = ok tg → rd s.tc l = ok tc → rd s.gc l = ok gc →
    0 ≤ tt ∧ 0 ≤ gg ∧ 0 ≤ cc ∧ |tg| ≤ √(tt * gg) ∧ |tc| ≤ √(tt * cc) ∧ |gc| ≤ √(gg * cc)

/-! ## Specification -/

/-- `a(l,m)` as a function. -/
noncomputable def coef (a : Alm ℂ) (l m : ℤ) : ℂ :=
  match a.get l m with
  | ok x => x
  | _ => 0

theorem get_coef {a : Alm ℂ} (h : a.WF) {l m : ℤ} (hv : Valid a.lmax a.mmax l m) : a.get l m = ok (coef a l m) := by
  obtain ⟨x, hx⟩ := a.get_ok h hv
  unfold coef
  rw [hx]

/-- The textbook cross spectrum of two real fields of which the coefficients with `m ≥ 0` are stored:
`C_l = (a_{l0} b_{l0} + 2 Σ_{m=1}^{min(l,M)} Re(a_{lm} conj b_{lm})) / (2l+1)`, with the real parts for `m = 0`. -/
noncomputable def cross (a b : ℤ → ℤ → ℂ) (M : ℤ) (l : ℕ) : ℝ :=
  ((a l 0).re * (b l 0).re + 2 * ∑ k ∈ Finset.range (min (l : ℤ) M).toNat, (a l (k + 1) * (starRingEnd ℂ) (b l (k + 1))).re) /
    (2 * l + 1)

theorem crossL_eq {a1 a2 : Alm ℂ} (h1 : a1.WF) (h2 : a2.WF) (hc : conformable a1 a2) {l : ℕ} (hl : (l : ℤ) ≤ a1.lmax) :
    crossL a1 a2 l = ok (cross (coef a1) (coef a2) a1.mmax l) := by
  obtain ⟨hcl, hcm⟩ := hc
  have g1 : ∀ m : ℤ, 0 ≤ m → m ≤ a1.mmax → m ≤ l → a1.get l m = ok (coef a1 l m) := fun m x y z => get_coef h1 ⟨x, y, z, hl⟩
  have g2 : ∀ m : ℤ, 0 ≤ m → m ≤ a1.mmax → m ≤ l → a2.get l m = ok (coef a2 l m) :=
    fun m x y z => get_coef h2 ⟨x, by omega, z, by omega⟩
  have h0 := h1.1
  unfold crossL
  rw [g1 0 le_rfl h0 (by omega), g2 0 le_rfl h0 (by omega)]
  simp only [ok_bind]
  obtain ⟨s, hs, hP⟩ := forN_inv (min (l : ℤ) a1.mmax).toNat (fun k (s : ℝ) => do
    let x ← a1.get l ((k : ℤ) + 1)
    let y ← a2.get l ((k : ℤ) + 1)
    ok (s + 2 * (x.re * y.re + x.im * y.im))) ((coef a1 l 0).re * (coef a2 l 0).re)
    (fun n s => s = (coef a1 l 0).re * (coef a2 l 0).re +
      2 * ∑ k ∈ Finset.range n, (coef a1 l (k + 1) * (starRingEnd ℂ) (coef a2 l (k + 1))).re) (by simp) (by
      intro k s hk hP
      rw [g1 _ (by omega) (by omega) (by omega), g2 _ (by omega) (by omega) (by omega)]
      refine ⟨_, rfl, ?_⟩
      rw [hP, Finset.sum_range_succ, Complex.mul_re, Complex.conj_re, Complex.conj_im]
      ring)
  rw [hs, ok_bind, hP]
  rfl

theorem crossAll_eq {a1 a2 : Alm ℂ} (h1 : a1.WF) (h2 : a2.WF) (hc : conformable a1 a2) :
    crossAll a1 a2 = ok ((List.range (a1.lmax + 1).toNat).map (cross (coef a1) (coef a2) a1.mmax)) := by
  unfold crossAll
  obtain ⟨t, ht, hP⟩ := forN_inv (a1.lmax + 1).toNat (fun l (tt : List ℝ) => do let v ← crossL a1 a2 l; ok (tt ++ [v])) []
    (fun n tt => tt = (List.range n).map (cross (coef a1) (coef a2) a1.mmax)) rfl (by
      intro l tt hl hP
      refine ⟨_, by rw [crossL_eq h1 h2 hc (by omega), ok_bind], ?_⟩
      rw [hP, List.range_succ, List.map_append]
      rfl)
  rw [ht, hP]

/-! ## Algebra of `cross` -/

theorem cross_self (a : ℤ → ℤ → ℂ) (M : ℤ) (l : ℕ) : cross a a M l =
    ((a l 0).re ^ 2 + 2 * ∑ k ∈ Finset.range (min (l : ℤ) M).toNat, ‖a l (k + 1)‖ ^ 2) / (2 * l + 1) := by
  unfold cross
  congr 2
  · ring
  · congr 1
    apply Finset.sum_congr rfl
    intro k _
    rw [Complex.mul_conj, Complex.ofReal_re, Complex.normSq_eq_norm_sq]

theorem cross_self_nonneg (a : ℤ → ℤ → ℂ) (M : ℤ) (l : ℕ) : 0 ≤ cross a a M l := by
  rw [cross_self]
  apply div_nonneg _ (by positivity)
  have : 0 ≤ ∑ k ∈ Finset.range (min (l : ℤ) M).toNat, ‖a l (k + 1)‖ ^ 2 := Finset.sum_nonneg fun _ _ => by positivity
  positivity

theorem cross_comm (a b : ℤ → ℤ → ℂ) (M : ℤ) (l : ℕ) : cross a b M l = cross b a M l := by
  unfold cross
  congr 2
  · ring
  · congr 1
    apply Finset.sum_congr rfl
    intro k _
    rw [Complex.mul_re, Complex.mul_re, Complex.conj_re, Complex.conj_im, Complex.conj_re, Complex.conj_im]
    ring

theorem cross_add_left (a b c : ℤ → ℤ → ℂ) (x y : ℝ) (M : ℤ) (l : ℕ) :
    cross (fun l m => x * a l m + y * b l m) c M l = x * cross a c M l + y * cross b c M l := by
  unfold cross
  have e : ∀ k : ℕ, ((x * a l (k + 1) + y * b l (k + 1)) * (starRingEnd ℂ) (c l (k + 1))).re =
      x * (a l (k + 1) * (starRingEnd ℂ) (c l (k + 1))).re + y * (b l (k + 1) * (starRingEnd ℂ) (c l (k + 1))).re := by
    intro k
    rw [add_mul, Complex.add_re, mul_assoc, mul_assoc, Complex.re_ofReal_mul, Complex.re_ofReal_mul]
  rw [Finset.sum_congr rfl fun k _ => e k, Finset.sum_add_distrib, ← Finset.mul_sum, ← Finset.mul_sum, Complex.add_re,
    Complex.re_ofReal_mul, Complex.re_ofReal_mul]
  ring

theorem cross_cs (a b : ℤ → ℤ → ℂ) (M : ℤ) (l : ℕ) : cross a b M l ^ 2 ≤ cross a a M l * cross b b M l := by
  have h : ∀ x : ℝ, 0 ≤ cross b b M l * (x * x) + 2 * cross a b M l * x + cross a a M l := by
    intro x
    have h1 := cross_self_nonneg (fun l m => ((1 : ℝ) : ℂ) * a l m + (x : ℂ) * b l m) M l
    rw [cross_add_left, cross_comm a, cross_comm b, cross_add_left, cross_add_left, cross_comm b a] at h1
    nlinarith
  have := discrim_le_zero h
  unfold discrim at this
  nlinarith

/-! ## C50 -/

/-- C50: the extracted cross spectrum is the textbook one, at every degree, with no access outside the storage; expansions with
different limits are rejected. -/
theorem C50_value (a1 a2 : Alm ℂ) (h1 : a1.WF) (h2 : a2.WF) :
    (conformable a1 a2 → ∃ tt, extractCross a1 a2 = ok tt ∧ (tt.length : ℤ) = a1.lmax + 1 ∧
      ∀ l : ℕ, (l : ℤ) ≤ a1.lmax → rd tt l = ok (cross (coef a1) (coef a2) a1.mmax l)) ∧
    (¬conformable a1 a2 → (extractCross a1 a2).IsThrow) := by
  constructor
  · intro hc
    refine ⟨_, by unfold extractCross; rw [if_pos hc, crossAll_eq h1 h2 hc], ?_, ?_⟩
    · have := h1.1; have := h1.2.1
      rw [List.length_map, List.length_range]; omega
    · intro l hl
      rw [rd_map_range (by omega) (by omega)]
      simp
  · intro hc
    unfold extractCross
    rw [if_neg hc]
    trivial

/-- C50: every entry of an auto spectrum is non-negative (so `Set` prints no warning), and it vanishes exactly when the real
part of the `m = 0` coefficient and all other coefficients of that degree vanish. -/
theorem C50_nonneg (a : Alm ℂ) (h : a.WF) : ∃ tt, extractCross a a = ok tt ∧ consistent1 tt ∧
    ∀ l : ℕ, (l : ℤ) ≤ a.lmax → ∃ x, rd tt l = ok x ∧ 0 ≤ x ∧
      (x = 0 ↔ (coef a l 0).re = 0 ∧ ∀ m : ℕ, 1 ≤ m → (m : ℤ) ≤ min (l : ℤ) a.mmax → coef a l m = 0) := by
  obtain ⟨tt, ht, hlen, hv⟩ := (C50_value a a h h).1 ⟨rfl, rfl⟩
  refine ⟨tt, ht, ?_, ?_⟩
  · intro l x hx
    have hl : (l : ℤ) ≤ a.lmax := by
      by_contra hc
      rw [rd_ub (Or.inr (by omega))] at hx
      cases hx
    rw [hv l hl] at hx
    cases hx
    exact cross_self_nonneg _ _ _
  · intro l hl
    refine ⟨_, hv l hl, cross_self_nonneg _ _ _, ?_⟩
    rw [cross_self, div_eq_zero_iff]
    have hp : (2 * (l : ℝ) + 1) ≠ 0 := by positivity
    have hs : 0 ≤ ∑ k ∈ Finset.range (min (l : ℤ) a.mmax).toNat, ‖coef a l (k + 1)‖ ^ 2 := Finset.sum_nonneg fun _ _ => by positivity
    constructor
    · rintro (h0 | h0)
      · have e1 : (coef a l 0).re ^ 2 = 0 := by nlinarith [sq_nonneg (coef a l 0).re]
        have e2 : ∑ k ∈ Finset.range (min (l : ℤ) a.mmax).toNat, ‖coef a l (k + 1)‖ ^ 2 = 0 := by
          nlinarith [sq_nonneg (coef a l 0).re]
        refine ⟨by simpa using e1, fun m hm1 hm2 => ?_⟩
        have e3 := (Finset.sum_eq_zero_iff_of_nonneg (fun _ _ => by positivity)).mp e2 (m - 1) (Finset.mem_range.mpr (by omega))
        have e4 : ((m - 1 : ℕ) : ℤ) + 1 = m := by omega
        rw [e4] at e3
        simpa using e3
      · exact absurd h0 hp
    · rintro ⟨h0, hm⟩
      left
      rw [h0, Finset.sum_eq_zero]
      · ring
      · intro k hk
        have := hm (k + 1) (by omega) (by have := Finset.mem_range.mp hk; omega)
        push_cast at this
        rw [this]; simp

/-- C50: Cauchy-Schwarz. The square of a cross spectrum never exceeds the product of the auto spectra. -/
theorem C50_cauchy_schwarz (a b : Alm ℂ) (ha : a.WF) (hb : b.WF) (hc : conformable a b) :
    ∃ ab aa bb, extractCross a b = ok ab ∧ extractCross a a = ok aa ∧ extractCross b b = ok bb ∧
      ∀ l : ℕ, (l : ℤ) ≤ a.lmax → ∃ x y z, rd ab l = ok x ∧ rd aa l = ok y ∧ rd bb l = ok z ∧ x ^ 2 ≤ y * z := by
  obtain ⟨ab, h1, _, v1⟩ := (C50_value a b ha hb).1 hc
  obtain ⟨aa, h2, _, v2⟩ := (C50_value a a ha ha).1 ⟨rfl, rfl⟩
  obtain ⟨bb, h3, _, v3⟩ := (C50_value b b hb hb).1 ⟨rfl, rfl⟩
  refine ⟨ab, aa, bb, h1, h2, h3, fun l hl => ⟨_, _, _, v1 l hl, v2 l hl, v3 l (by have := hc.1; omega), ?_⟩⟩
  rw [← hc.2]
  exact cross_cs _ _ _ _

/-- C50: the six spectra of a polarised field pass the library's own consistency check. -/
theorem C50_pol_consistent (t g c : Alm ℂ) (ht : t.WF) (hg : g.WF) (hc : c.WF) (h1 : conformable t g) (h2 : conformable t c) :
    ∃ s, extractPol t g c = ok s ∧ consistent6 s ∧ (s.tt.length : ℤ) = t.lmax + 1 := by
  have hgc : conformable g c := ⟨h1.1.symm.trans h2.1, h1.2.symm.trans h2.2⟩
  have e : ∀ {a b : Alm ℂ}, a.WF → b.WF → conformable a b → conformable t a →
      crossAll a b = ok ((List.range (t.lmax + 1).toNat).map (cross (coef a) (coef b) t.mmax)) := by
    intro a b ha hb hab hta
    rw [crossAll_eq ha hb hab, hta.1, hta.2]
  set L := fun a b => (List.range (t.lmax + 1).toNat).map (cross (coef a) (coef b) t.mmax)
  refine ⟨Spec.mk (L t t) (L g g) (L c c) (L t g) (L t c) (L g c), ?_, ?_, ?_⟩
  · unfold extractPol
    rw [if_pos ⟨h1, h2⟩, e ht ht ⟨rfl, rfl⟩ ⟨rfl, rfl⟩, e hg hg ⟨rfl, rfl⟩ h1, e hc hc ⟨rfl, rfl⟩ h2, e ht hg h1 ⟨rfl, rfl⟩,
      e ht hc h2 ⟨rfl, rfl⟩, e hg hc hgc h1]
    simp only [ok_bind]
    rw [if_pos (by simp [L])]
  · intro l hl tt gg cc tg tc gc r1 r2 r3 r4 r5 r6
    simp only [L, List.length_map, List.length_range] at hl
    have rr : ∀ (f : ℕ → ℝ) x, rd ((List.range (t.lmax + 1).toNat).map f) l = ok x → x = f l := by
      intro f x h
      rw [rd_map_range (by omega) (by omega)] at h
      simpa using h.symm
    rw [rr _ _ r1, rr _ _ r2, rr _ _ r3, rr _ _ r4, rr _ _ r5, rr _ _ r6]
    have cs := fun a b => Real.abs_le_sqrt (cross_cs a b t.mmax l)
    exact ⟨cross_self_nonneg _ _ _, cross_self_nonneg _ _ _, cross_self_nonneg _ _ _, cs _ _, cs _ _, cs _ _⟩
  · have := ht.1; have := ht.2.1
    simp only [L, List.length_map, List.length_range]; omega

/-- C50: the six spectra of a polarised field are the auto and cross spectra of the right pairs of components (whose values
C50_value gives); expansions with different limits are rejected. -/
theorem C50_pol_value (t g c : Alm ℂ) (ht : t.WF) (hg : g.WF) (hc : c.WF) :
    (conformable t g → conformable t c → ∃ s, extractPol t g c = ok s ∧ extractCross t t = ok s.tt ∧ extractCross g g = ok s.gg ∧
      extractCross c c = ok s.cc ∧ extractCross t g = ok s.tg ∧ extractCross t c = ok s.tc ∧ extractCross g c = ok s.gc) ∧
    (¬(conformable t g ∧ conformable t c) → (extractPol t g c).IsThrow) := by
  constructor
  · intro h1 h2
    have hgc : conformable g c := ⟨h1.1.symm.trans h2.1, h1.2.symm.trans h2.2⟩
    have e : ∀ {a b : Alm ℂ}, a.WF → b.WF → conformable a b → conformable t a → ∃ x : List ℝ, crossAll a b = ok x ∧
        extractCross a b = ok x ∧ x.length = (t.lmax + 1).toNat := by
      intro a b ha hb hab hta
      have h := crossAll_eq ha hb hab
      refine ⟨_, h, by unfold extractCross; rw [if_pos hab, h], ?_⟩
      rw [List.length_map, List.length_range, hta.1]
    obtain ⟨tt, x1, y1, z1⟩ := e ht ht ⟨rfl, rfl⟩ ⟨rfl, rfl⟩
    obtain ⟨gg, x2, y2, z2⟩ := e hg hg ⟨rfl, rfl⟩ h1
    obtain ⟨cc, x3, y3, z3⟩ := e hc hc ⟨rfl, rfl⟩ h2
    obtain ⟨tg, x4, y4, z4⟩ := e ht hg h1 ⟨rfl, rfl⟩
    obtain ⟨tc, x5, y5, z5⟩ := e ht hc h2 ⟨rfl, rfl⟩
    obtain ⟨gc, x6, y6, z6⟩ := e hg hc hgc h1
    refine ⟨Spec.mk tt gg cc tg tc gc, ?_, y1, y2, y3, y4, y5, y6⟩
    unfold extractPol
    rw [if_pos ⟨h1, h2⟩, x1, x2, x3, x4, x5, x6]
    simp only [ok_bind]
    rw [if_pos (by rw [z1, z2, z3, z4, z5, z6]; simp)]
  · intro h
    unfold extractPol
    rw [if_neg h]
    trivial

/-- C50: rotation about the polar axis, which multiplies `a(l,m)` by `exp(i m α)`, changes no auto or cross spectrum. -/
theorem C50_phase (a a' b b' : Alm ℂ) (ha : a.WF) (ha' : a'.WF) (hb : b.WF) (hb' : b'.WF) (α : ℝ)
    (h1 : conformable a b) (h2 : conformable a a') (h3 : conformable b b')
    (hra : ∀ l m, Valid a.lmax a.mmax l m → coef a' l m = Complex.exp (Complex.I * m * α) * coef a l m)
    (hrb : ∀ l m, Valid a.lmax a.mmax l m → coef b' l m = Complex.exp (Complex.I * m * α) * coef b l m) :
    extractCross a' b' = extractCross a b := by
  have h4 : conformable a' b' := ⟨by rw [← h2.1, h1.1, h3.1], by rw [← h2.2, h1.2, h3.2]⟩
  unfold extractCross
  rw [if_pos h4, if_pos h1, crossAll_eq ha' hb' h4, crossAll_eq ha hb h1, ← h2.1, ← h2.2]
  congr 1
  apply List.map_congr_left
  intro l hl
  have hl' := List.mem_range.mp hl
  have h0 := ha.1
  unfold cross
  rw [hra l 0 ⟨le_rfl, h0, by omega, by omega⟩, hrb l 0 ⟨le_rfl, h0, by omega, by omega⟩]
  have e0 : Complex.exp (Complex.I * ((0 : ℤ) : ℂ) * α) = 1 := by simp
  rw [e0, one_mul, one_mul]
  congr 3
  apply Finset.sum_congr rfl
  intro k hk
  have hk' := Finset.mem_range.mp hk
  have hv : Valid a.lmax a.mmax l ((k : ℤ) + 1) := ⟨by omega, by omega, by omega, by omega⟩
  rw [hra _ _ hv, hrb _ _ hv, map_mul, mul_mul_mul_comm, Complex.mul_conj, Complex.normSq_eq_norm_sq]
  have : ‖Complex.exp (Complex.I * (((k : ℤ) + 1 : ℤ) : ℂ) * α)‖ = 1 := by
    have : Complex.I * (((k : ℤ) + 1 : ℤ) : ℂ) * α = ((((k : ℝ) + 1) * α : ℝ) : ℂ) * Complex.I := by push_cast; ring
    rw [this, Complex.norm_exp_ofReal_mul_I]
  rw [this]
  simp

/-- Multiplying every coefficient of degree `l` by `f l` (real) multiplies the cross spectrum by `f l * g l`. -/
theorem C50_scaleL (a a' b b' : Alm ℂ) (ha : a.WF) (ha' : a'.WF) (hb : b.WF) (hb' : b'.WF) (f g : ℕ → ℝ)
    (h1 : conformable a b) (h2 : conformable a a') (h3 : conformable b b')
    (hra : ∀ l m, Valid a.lmax a.mmax l m → coef a' l m = coef a l m * f l.toNat)
    (hrb : ∀ l m, Valid a.lmax a.mmax l m → coef b' l m = coef b l m * g l.toNat) :
    ∃ x y, extractCross a b = ok x ∧ extractCross a' b' = ok y ∧
      ∀ l : ℕ, (l : ℤ) ≤ a.lmax → ∃ c, rd x l = ok c ∧ rd y l = ok (f l * g l * c) := by
  have h4 : conformable a' b' := ⟨by rw [← h2.1, h1.1, h3.1], by rw [← h2.2, h1.2, h3.2]⟩
  obtain ⟨x, hx, _, vx⟩ := (C50_value a b ha hb).1 h1
  obtain ⟨y, hy, _, vy⟩ := (C50_value a' b' ha' hb').1 h4
  refine ⟨x, y, hx, hy, fun l hl => ⟨_, vx l hl, ?_⟩⟩
  rw [vy l (by rw [← h2.1]; exact hl), ← h2.2]
  congr 1
  have h0 := ha.1
  unfold cross
  rw [hra l 0 ⟨le_rfl, h0, by omega, by omega⟩, hrb l 0 ⟨le_rfl, h0, by omega, by omega⟩, Int.toNat_natCast]
  have e : ∀ k ∈ Finset.range (min (l : ℤ) a.mmax).toNat, (coef a' l (k + 1) * (starRingEnd ℂ) (coef b' l (k + 1))).re =
      f l * g l * (coef a l (k + 1) * (starRingEnd ℂ) (coef b l (k + 1))).re := by
    intro k hk
    have hk' := Finset.mem_range.mp hk
    have hv : Valid a.lmax a.mmax l ((k : ℤ) + 1) := ⟨by omega, by omega, by omega, by omega⟩
    rw [hra _ _ hv, hrb _ _ hv, map_mul, Complex.conj_ofReal, Int.toNat_natCast]
    rw [show coef a l (k + 1) * (f l : ℂ) * ((starRingEnd ℂ) (coef b l (k + 1)) * (g l : ℂ)) =
      ((f l * g l : ℝ) : ℂ) * (coef a l (k + 1) * (starRingEnd ℂ) (coef b l (k + 1))) by push_cast; ring, Complex.re_ofReal_mul]
  rw [Finset.sum_congr rfl e, ← Finset.mul_sum, Complex.re_mul_ofReal, Complex.re_mul_ofReal]
  ring

theorem coef_scale {a : Alm ℂ} (h : a.WF) (f : ℂ → ℂ) {l m : ℤ} (hv : Valid a.lmax a.mmax l m) :
    coef (a.scale f) l m = f (coef a l m) := by
  have h1 := Alm.scale_get h f hv (get_coef h hv)
  unfold coef at h1 ⊢
  rw [h1]

/-- C50: `Scale(s)` multiplies the auto spectrum by `s²`. -/
theorem C50_quadratic (a : Alm ℂ) (h : a.WF) (s : ℝ) : ∃ x y, extractCross a a = ok x ∧
    extractCross (a.scale (fun z => z * s)) (a.scale (fun z => z * s)) = ok y ∧
    ∀ l : ℕ, (l : ℤ) ≤ a.lmax → ∃ c, rd x l = ok c ∧ rd y l = ok (s ^ 2 * c) := by
  obtain ⟨x, y, hx, hy, hv⟩ := C50_scaleL a _ a _ h (Alm.scale_wf h (fun z => z * s)) h (Alm.scale_wf h (fun z => z * s))
    (fun _ => s) (fun _ => s) ⟨rfl, rfl⟩ ⟨rfl, rfl⟩ ⟨rfl, rfl⟩ (fun l m hv => coef_scale h _ hv) (fun l m hv => coef_scale h _ hv)
  refine ⟨x, y, hx, hy, fun l hl => ?_⟩
  obtain ⟨c, h1, h2⟩ := hv l hl
  exact ⟨c, h1, by rw [h2]; ring_nf⟩

/-! ## Smoothing -/

/-- The factors of `smoothWithGauss` for `a_lm`, alm_powspec_tools.cc:256-260; `σ = fwhm*fwhm2sigma`. -/
noncomputable def gaussAlm (fwhm k : ℝ) (l : ℕ) : ℝ :=
  let fct : ℝ := if 0 ≤ fwhm then 1 else -1
  let sigma := fwhm * k
  Real.exp (-(1 / 2) * fct * l * (l + 1) * sigma * sigma)

/-- `smoothWithGauss` for one expansion, alm_powspec_tools.cc:253-262. -/
noncomputable def smoothAlm (a : Alm ℂ) (fwhm k : ℝ) : Res (Alm ℂ) := a.scaleL (fun x l => x * (gaussAlm fwhm k l : ℂ))

/-- `PowSpec::smoothWithGauss` for one spectrum, powspec.cc:142-160. -/
noncomputable def smoothSpec (tt : List ℝ) (fwhm k : ℝ) : List ℝ :=
  tt.mapIdx (fun l x =>
    let sigma := fwhm * k
    let f1 := Real.exp (-(1 / 2) * l * (l + 1) * sigma * sigma)
    x * (f1 * f1))

/-- C50: for non-negative widths, smoothing the expansion and then extracting the spectrum is the same as extracting and then
smoothing the spectrum. -/
theorem C50_smooth (a : Alm ℂ) (h : a.WF) (fwhm k : ℝ) (hf : 0 ≤ fwhm) :
    ∃ b x, smoothAlm a fwhm k = ok b ∧ extractCross a a = ok x ∧ extractCross b b = ok (smoothSpec x fwhm k) := by
  obtain ⟨b, hb, hw, hl, hm, hg⟩ := Alm.scaleL_ok h (fun x l => x * (gaussAlm fwhm k l : ℂ))
  have hco : ∀ l m, Valid a.lmax a.mmax l m → coef b l m = coef a l m * gaussAlm fwhm k l.toNat := by
    intro l m hv
    have := hg l m hv _ (get_coef h hv)
    unfold coef at this ⊢
    rw [this]
  obtain ⟨x, y, hx, hy, hv⟩ := C50_scaleL a b a b h hw h hw (gaussAlm fwhm k) (gaussAlm fwhm k) ⟨rfl, rfl⟩ ⟨hl.symm, hm.symm⟩
    ⟨hl.symm, hm.symm⟩ hco hco
  refine ⟨b, x, hb, hx, ?_⟩
  rw [hy]
  congr 1
  obtain ⟨x', hx', lx, _⟩ := (C50_value a a h h).1 ⟨rfl, rfl⟩
  obtain ⟨y', hy', ly, _⟩ := (C50_value b b hw hw).1 ⟨rfl, rfl⟩
  rw [hx] at hx'; cases hx'
  rw [hy] at hy'; cases hy'
  apply List.ext_getElem
  · unfold smoothSpec; rw [List.length_mapIdx]; omega
  · intro l h1 h2
    obtain ⟨c, r1, r2⟩ := hv l (by omega)
    rw [rd_nat (by omega)] at r1 r2
    injection r1 with r1; injection r2 with r2
    have e : (smoothSpec x fwhm k)[l] = x[l] * (Real.exp (-(1 / 2) * l * (l + 1) * (fwhm * k) * (fwhm * k)) *
        Real.exp (-(1 / 2) * l * (l + 1) * (fwhm * k) * (fwhm * k))) := by
      unfold smoothSpec; exact List.getElem_mapIdx ..
    rw [e, r2, r1]
    unfold gaussAlm
    rw [if_pos hf]
    dsimp only
    rw [mul_one]
    ring

/-- C50, finding: for a negative width (documented as deconvolution for `a_lm`) the two smoothing functions disagree: the
expansion is sharpened, the spectrum is smoothed. -/
theorem C50_smooth_negative (k : ℝ) (hk : k ≠ 0) : ∃ (a b : Alm ℂ) (x y : List ℝ), a.WF ∧ smoothAlm a (-1) k = ok b ∧
    extractCross a a = ok x ∧ extractCross b b = ok y ∧ y ≠ smoothSpec x (-1) k := by
  have ha : (⟨1, 0, [0, 1]⟩ : Alm ℂ).WF := ⟨le_rfl, by norm_num, by unfold numAlms; norm_num⟩
  set a : Alm ℂ := ⟨1, 0, [0, 1]⟩ with hadef
  obtain ⟨b, hb, hw, hl, hm, hg⟩ := Alm.scaleL_ok ha (fun x l => x * (gaussAlm (-1) k l : ℂ))
  have hco : ∀ l m, Valid a.lmax a.mmax l m → coef b l m = coef a l m * gaussAlm (-1) k l.toNat := by
    intro l m hv
    have := hg l m hv _ (get_coef ha hv)
    unfold coef at this ⊢
    rw [this]
  obtain ⟨x, y, hx, hy, hv⟩ := C50_scaleL a b a b ha hw ha hw (gaussAlm (-1) k) (gaussAlm (-1) k) ⟨rfl, rfl⟩ ⟨hl.symm, hm.symm⟩
    ⟨hl.symm, hm.symm⟩ hco hco
  refine ⟨a, b, x, y, ha, hb, hx, hy, fun he => ?_⟩
  obtain ⟨x', hx', lx, vx⟩ := (C50_value a a ha ha).1 ⟨rfl, rfl⟩
  rw [hx] at hx'; cases hx'
  obtain ⟨c, r1, r2⟩ := hv 1 (by norm_num [hadef])
  have hc : c = 1 / 3 := by
    rw [vx 1 (by norm_num [hadef])] at r1
    injection r1 with r1
    rw [← r1, cross_self]
    have e1 : coef a ((1 : ℕ) : ℤ) 0 = 1 := by
      unfold coef Alm.get rd index indexL0
      norm_num [hadef]
    rw [e1]
    have : (min ((1 : ℕ) : ℤ) a.mmax).toNat = 0 := by norm_num [hadef]
    rw [this]
    norm_num
  have hlen : 1 < x.length := by have : a.lmax = 1 := rfl; omega
  have hmi : rd (smoothSpec x (-1) k) ((1 : ℕ) : ℤ) = ok (c * (Real.exp (-(k * k)) * Real.exp (-(k * k)))) := by
    rw [rd_nat hlen] at r1
    injection r1 with r1
    rw [rd_nat (by unfold smoothSpec; rw [List.length_mapIdx]; exact hlen)]
    congr 1
    unfold smoothSpec
    rw [List.getElem_mapIdx, r1]
    dsimp only
    have : -(1 / 2 : ℝ) * ((1 : ℕ) : ℝ) * (((1 : ℕ) : ℝ) + 1) * (-1 * k) * (-1 * k) = -(k * k) := by push_cast; ring
    rw [this]
  rw [← he, r2] at hmi
  injection hmi with hmi
  have hg1 : gaussAlm (-1) k 1 = Real.exp (k * k) := by
    unfold gaussAlm
    rw [if_neg (by norm_num)]
    dsimp only
    congr 1
    push_cast; ring
  rw [hg1, hc] at hmi
  have hpos : 0 < k * k := mul_self_pos.mpr hk
  have e1 : 1 < Real.exp (k * k) := Real.one_lt_exp_iff.mpr hpos
  have e2 : Real.exp (-(k * k)) < 1 := Real.exp_lt_one_iff.mpr (by linarith)
  have e3 : 0 < Real.exp (-(k * k)) := Real.exp_pos _
  nlinarith

/-- The hypotheses are met: an expansion with `lmax = 1`. -/
example : ∃ tt, extractCross ⟨1, 1, [1, 2, Complex.I]⟩ ⟨1, 1, [1, 2, Complex.I]⟩ = ok tt ∧ consistent1 tt := by
  obtain ⟨tt, h, hc, _⟩ := C50_nonneg ⟨1, 1, [1, 2, Complex.I]⟩ ⟨by norm_num, le_rfl, by unfold numAlms; norm_num⟩
  exact ⟨tt, h, hc⟩

end Verif.PowSpec
