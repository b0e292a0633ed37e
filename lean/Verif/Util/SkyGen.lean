import Verif.Util.PowSpec
import Mathlib.MeasureTheory.Integral.Bochner.Basic
import Mathlib.Tactic.Ring

/-!
# Random skies with a prescribed power spectrum (C69): model

levels/Healpix_cxx/alm_powspec_tools.cc:48-133.  Exact arithmetic.  `next` is `planck_rng::rand_gauss` (modelled in
`Verif/Util/Rng.lean`): the number returned and the state of the generator afterwards.  A number is supposed to be returned: the
rejection loop ends.  The square root of a negative number (a NaN in the program) is 0 here: the theorems assume
non-negative auto spectra.
-/

namespace Verif.SkyGen

open Verif Res Verif.Harm Verif.Num Verif.PowSpec

variable {G : Type}

/-- `hsqrt2`, alm_powspec_tools.cc:53 and :84. -/
noncomputable def hs : ℝ := 1 / √2

/-- One pass of the loop over orders, alm_powspec_tools.cc:60-65. -/
noncomputable def stepT (next : G → ℝ × G) (l : ℕ) (rms : ℝ) (k : ℕ) (s : G × Alm ℂ) : Res (G × Alm ℂ) := do
  let zr := next s.1
  let zi := next zr.2
  let a ← s.2.put l ((k : ℤ) + 1) ⟨zr.1 * hs * rms, zi.1 * hs * rms⟩
  ok (zi.2, a)

/-- One pass of the loop over degrees, alm_powspec_tools.cc:57-66. -/
noncomputable def rowT (next : G → ℝ × G) (tt : List ℝ) (l : ℕ) (s : G × Alm ℂ) : Res (G × Alm ℂ) := do
  let c ← rd tt l
  let z := next s.1
  let a ← s.2.put l 0 ((z.1 * √c : ℝ) : ℂ)
  forN (min (l : ℤ) a.mmax).toNat (stepT next l (√c)) (z.2, a)

/-- `create_alm(powspec, alm, rng)`, alm_powspec_tools.cc:48-67: the generator and the coefficients afterwards. -/
noncomputable def createAlm (next : G → ℝ × G) (tt : List ℝ) (g : G) (a : Alm ℂ) : Res (G × Alm ℂ) :=
  forN (a.lmax + 1).toNat (rowT next tt) (g, a)

/-- `rms_tt` and `rms_g1`, alm_powspec_tools.cc:88-93. -/
noncomputable def rms1 (s : Spec) (l : ℕ) : Res (ℝ × ℝ) := do
  let t ← rd s.tt l
  if t ≠ 0 then do
    let x ← rd s.tg l
    ok (√t, x / √t)
  else ok (0, 0)

/-- alm_powspec_tools.cc:98-104. -/
noncomputable def step1 (next : G → ℝ × G) (l : ℕ) (r : ℝ × ℝ) (k : ℕ) (s : G × Alm ℂ × Alm ℂ) :
    Res (G × Alm ℂ × Alm ℂ) := do
  let zr := next s.1
  let zi := next zr.2
  let t ← s.2.1.put l ((k : ℤ) + 1) ⟨zr.1 * hs * r.1, zi.1 * hs * r.1⟩
  let g ← s.2.2.put l ((k : ℤ) + 1) ⟨zr.1 * hs * r.2, zi.1 * hs * r.2⟩
  ok (zi.2, t, g)

/-- alm_powspec_tools.cc:86-105; `mmax` is that of `almT`. -/
noncomputable def row1 (next : G → ℝ × G) (sp : Spec) (mmax : ℤ) (l : ℕ) (s : G × Alm ℂ × Alm ℂ) :
    Res (G × Alm ℂ × Alm ℂ) := do
  let r ← rms1 sp l
  let z := next s.1
  let t ← s.2.1.put l 0 ((z.1 * r.1 : ℝ) : ℂ)
  let g ← s.2.2.put l 0 ((z.1 * r.2 : ℝ) : ℂ)
  forN (min (l : ℤ) mmax).toNat (step1 next l r) (z.2, t, g)

/-- The `if (rms_g2 <= 0)` with its assertion, alm_powspec_tools.cc:114-119. -/
noncomputable def clip (v gg : ℝ) : Res ℝ :=
  if v ≤ 0 then (if |v| ≤ 1e-8 * |gg| then ok 0 else throw "Inconsistent TT, GG and TG spectra") else ok v

/-- `rms_g2` and `rms_cc`, alm_powspec_tools.cc:109-122. -/
noncomputable def rms2 (s : Spec) (l : ℕ) : Res (ℝ × ℝ) := do
  let t ← rd s.tt l
  if t ≠ 0 then do
    let gg ← rd s.gg l
    let tg ← rd s.tg l
    let v ← clip (gg - (tg / t) * tg) gg
    let c ← rd s.cc l
    ok (√v, √c)
  else ok (0, 0)

/-- alm_powspec_tools.cc:126-135; the state holds the generator, `almG` and `almC`. -/
noncomputable def step2 (next : G → ℝ × G) (l : ℕ) (r : ℝ × ℝ) (k : ℕ) (s : G × Alm ℂ × Alm ℂ) :
    Res (G × Alm ℂ × Alm ℂ) := do
  let z2r := next s.1
  let z2i := next z2r.2
  let z3r := next z2i.2
  let z3i := next z3r.2
  let x ← s.2.1.get l ((k : ℤ) + 1)
  let g ← s.2.1.put l ((k : ℤ) + 1) (x + ⟨z2r.1 * hs * r.1, z2i.1 * hs * r.1⟩)
  let c ← s.2.2.put l ((k : ℤ) + 1) ⟨z3r.1 * hs * r.2, z3i.1 * hs * r.2⟩
  ok (z3i.2, g, c)

/-- alm_powspec_tools.cc:107-136; `mmax` is that of `almT`. -/
noncomputable def row2 (next : G → ℝ × G) (sp : Spec) (mmax : ℤ) (l : ℕ) (s : G × Alm ℂ × Alm ℂ) :
    Res (G × Alm ℂ × Alm ℂ) := do
  let r ← rms2 sp l
  let z2 := next s.1
  let x ← s.2.1.get l 0
  let g ← s.2.1.put l 0 (x + ((z2.1 * r.1 : ℝ) : ℂ))
  let z3 := next z2.2
  let c ← s.2.2.put l 0 ((z3.1 * r.2 : ℝ) : ℂ)
  forN (min (l : ℤ) mmax).toNat (step2 next l r) (z3.2, g, c)

/-- `create_alm_pol(powspec, almT, almG, almC, rng)`, alm_powspec_tools.cc:75-137: the generator and the three sets of
coefficients afterwards. -/
noncomputable def createPol (next : G → ℝ × G) (sp : Spec) (g : G) (t e b : Alm ℂ) : Res (G × Alm ℂ × Alm ℂ × Alm ℂ) := do
  let s ← forN (t.lmax + 1).toNat (row1 next sp t.mmax) (g, t, e)
  let u ← forN (t.lmax + 1).toNat (row2 next sp t.mmax) (s.1, s.2.2, b)
  ok (u.1, s.2.1, u.2.1, u.2.2)

/-! ## Specification -/

/-- The state of the generator after `n` numbers. -/
def after (next : G → ℝ × G) (g : G) (n : ℕ) : G := (fun x => (next x).2)^[n] g

/-- The `n`-th number drawn (from zero). -/
def out (next : G → ℝ × G) (g : G) (n : ℕ) : ℝ := (next (after next g n)).1

/-- The number of real components of degree `l`: one for order zero, two for each higher order. -/
def comps (M : ℤ) (l : ℕ) : ℕ := 1 + 2 * (min (l : ℤ) M).toNat

/-- The number of real components of all degrees below `l`. -/
def pos (M : ℤ) (l : ℕ) : ℕ := ∑ j ∈ Finset.range l, comps M j

/-- `a` holds the field with real components `x l i`: order zero is `x l 0`, order `m` is `(x l (2m-1) + i x l (2m)) / √2`. -/
def Holds (a : Alm ℂ) (x : ℕ → ℕ → ℝ) : Prop :=
  ∀ l m : ℕ, (m : ℤ) ≤ a.mmax → m ≤ l → (l : ℤ) ≤ a.lmax →
    a.get l m = ok (if m = 0 then ((x l 0 : ℝ) : ℂ) else ⟨x l (2 * m - 1) / √2, x l (2 * m) / √2⟩)

/-! ## Proof -/

theorem after_succ (next : G → ℝ × G) (g : G) (n : ℕ) : (next (after next g n)).2 = after next g (n + 1) := by
  unfold after
  rw [Function.iterate_succ_apply']

theorem after_zero (next : G → ℝ × G) (g : G) : after next g 0 = g := rfl

/-- The value written at order `m`. -/
noncomputable def val (x : ℕ → ℕ → ℝ) (l m : ℤ) : ℂ :=
  if m = 0 then ((x l.toNat 0 : ℝ) : ℂ) else ⟨x l.toNat (2 * m.toNat - 1) * hs, x l.toNat (2 * m.toNat) * hs⟩

/-- Coefficients of degree below `l`, and those of degree `l` and order below `n`, hold `v`; the others are those of `a0`. -/
structure Upto (a0 a : Alm ℂ) (l n : ℤ) (v : ℤ → ℤ → ℂ) : Prop where
  wf : a.WF
  lm : a.lmax = a0.lmax
  mm : a.mmax = a0.mmax
  new : ∀ i j, Valid a0.lmax a0.mmax i j → (i < l ∨ i = l ∧ j < n) → a.get i j = ok (v i j)
  old : ∀ i j, Valid a0.lmax a0.mmax i j → ¬(i < l ∨ i = l ∧ j < n) → a.get i j = a0.get i j

theorem Upto.put {a0 a : Alm ℂ} {l n : ℤ} {v : ℤ → ℤ → ℂ} (h : Upto a0 a l n v) (hv : Valid a0.lmax a0.mmax l n) :
    ∃ b, a.put l n (v l n) = ok b ∧ Upto a0 b l (n + 1) v := by
  have hv' : Valid a.lmax a.mmax l n := by rw [h.lm, h.mm]; exact hv
  obtain ⟨b, hb⟩ : ∃ b, a.put l n (v l n) = ok b := ⟨_, a.put_ok h.wf hv' _⟩
  obtain ⟨w1, w2, w3⟩ := Alm.put_wf h.wf hb
  have oth : ∀ i j, Valid a0.lmax a0.mmax i j → ¬(i = l ∧ j = n) → b.get i j = a.get i j := by
    intro i j hij hne
    refine Alm.get_put_other h.wf hv' (by rw [h.lm, h.mm]; exact hij) ?_ hb
    intro e
    cases e
    exact hne ⟨rfl, rfl⟩
  refine ⟨b, hb, w1, w2.trans h.lm, w3.trans h.mm, ?_, ?_⟩
  · intro i j hij hd
    by_cases e : i = l ∧ j = n
    · obtain ⟨rfl, rfl⟩ := e
      exact Alm.get_put_same hb
    · rw [oth i j hij e]
      exact h.new i j hij (by omega)
  · intro i j hij hd
    rw [oth i j hij (by omega)]
    exact h.old i j hij (by omega)

theorem Upto.start {a : Alm ℂ} (h : a.WF) (v : ℤ → ℤ → ℂ) : Upto a a 0 0 v :=
  ⟨h, rfl, rfl, fun i j hv hd => by unfold Valid at hv; omega, fun _ _ _ _ => rfl⟩

theorem Upto.row {a0 a : Alm ℂ} {l n : ℤ} {v : ℤ → ℤ → ℂ} (h : Upto a0 a l n v) (hn : min l a0.mmax < n) :
    Upto a0 a (l + 1) 0 v := by
  refine ⟨h.wf, h.lm, h.mm, ?_, ?_⟩
  · intro i j hv hd
    unfold Valid at hv
    exact h.new i j hv (by omega)
  · intro i j hv hd
    unfold Valid at hv
    exact h.old i j hv (by omega)

theorem hs_eq (x : ℝ) : x * hs = x / √2 := by unfold hs; ring

theorem Upto.holds {a0 a : Alm ℂ} {x : ℕ → ℕ → ℝ} (h : Upto a0 a (a0.lmax + 1) 0 (val x)) : Holds a x := by
  intro l m hm hml hl
  rw [h.mm] at hm
  rw [h.lm] at hl
  rw [h.new l m ⟨by omega, hm, by omega, hl⟩ (by omega)]
  unfold val
  by_cases e : m = 0
  · subst e; simp
  · rw [if_neg (by omega), if_neg e, hs_eq, hs_eq]
    simp

theorem pos_succ (M : ℤ) (l : ℕ) : pos M (l + 1) = pos M l + comps M l := Finset.sum_range_succ _ _

theorem val_zero (x : ℕ → ℕ → ℝ) (l : ℕ) : val x l 0 = ((x l 0 : ℝ) : ℂ) := by simp [val]

theorem val_succ (x : ℕ → ℕ → ℝ) (l k : ℕ) : val x l ((k : ℤ) + 1) = ⟨x l (1 + 2 * k) * hs, x l (1 + 2 * k + 1) * hs⟩ := by
  have e1 : 2 * ((k : ℤ) + 1).toNat - 1 = 1 + 2 * k := by omega
  have e2 : 2 * ((k : ℤ) + 1).toNat = 1 + 2 * k + 1 := by omega
  unfold val
  rw [if_neg (by omega), e1, e2, Int.toNat_natCast]

/-- The components of a temperature-like field: `√C_l` times the numbers drawn. -/
noncomputable def compT (z : ℕ → ℝ) (M : ℤ) (r : ℕ → ℝ) (p : ℕ) (l i : ℕ) : ℝ := r l * z (p + pos M l + i)

theorem rowT_ok (next : G → ℝ × G) (g0 : G) (tt : List ℝ) (a0 : Alm ℂ) (r : ℕ → ℝ) {l : ℕ} (hl : (l : ℤ) ≤ a0.lmax) (h0 : 0 ≤ a0.mmax)
    {c : ℝ} (hc : rd tt l = ok c) (hr : r l = √c) {s : G × Alm ℂ}
    (hs1 : s.1 = after next g0 (pos a0.mmax l)) (hs2 : Upto a0 s.2 l 0 (val (compT (out next g0) a0.mmax r 0))) :
    ∃ s', rowT next tt l s = ok s' ∧ s'.1 = after next g0 (pos a0.mmax (l + 1)) ∧
      Upto a0 s'.2 ((l : ℤ) + 1) 0 (val (compT (out next g0) a0.mmax r 0)) := by
  set x := compT (out next g0) a0.mmax r 0 with hx
  obtain ⟨b, hb, hb2⟩ := hs2.put ⟨le_rfl, h0, by omega, hl⟩
  have e0 : val x l 0 = (((next s.1).1 * √c : ℝ) : ℂ) := by
    rw [val_zero, hx, hs1, ← hr]
    unfold compT out
    rw [show 0 + pos a0.mmax l + 0 = pos a0.mmax l by omega, mul_comm]
  obtain ⟨s', h1, h2, h3⟩ := forN_inv (min (l : ℤ) b.mmax).toNat (stepT next l (√c)) ((next s.1).2, b)
    (fun n s => s.1 = after next g0 (pos a0.mmax l + 1 + 2 * n) ∧ Upto a0 s.2 l ((n : ℤ) + 1) (val x))
    ⟨by rw [hs1, after_succ], by simpa using hb2⟩ (by
      rintro k ⟨g, a⟩ hk ⟨i1, i2⟩
      dsimp only at i1 i2
      rw [hb2.mm] at hk
      obtain ⟨b', hb', hb2'⟩ := i2.put ⟨by omega, by omega, by omega, hl⟩
      have e : val x l ((k : ℤ) + 1) = ⟨(next g).1 * hs * √c, (next (next g).2).1 * hs * √c⟩ := by
        rw [val_succ, hx, i1, after_succ, ← hr]
        unfold compT out
        rw [show 0 + pos a0.mmax l + (1 + 2 * k) = pos a0.mmax l + 1 + 2 * k by omega,
          show 0 + pos a0.mmax l + (1 + 2 * k + 1) = pos a0.mmax l + 1 + 2 * k + 1 by omega]
        congr 1 <;> ring
      refine ⟨_, by unfold stepT; dsimp only; rw [← e, hb', ok_bind], ?_, ?_⟩
      · dsimp only
        rw [i1, after_succ, after_succ]
        rfl
      · simpa using hb2')
  refine ⟨s', ?_, ?_, ?_⟩
  · unfold rowT
    rw [hc, ok_bind]
    dsimp only
    rw [← e0, hb, ok_bind]
    exact h1
  · rw [h2, pos_succ, hb2.mm]
    unfold comps
    congr 1
    omega
  · refine h3.row ?_
    rw [hb2.mm]
    omega

/-- What `create_alm` leaves behind. -/
theorem createAlm_ok (next : G → ℝ × G) (g0 : G) (tt : List ℝ) (a : Alm ℂ) (ha : a.WF) (hlen : a.lmax < tt.length) :
    ∃ g' a', createAlm next tt g0 a = ok (g', a') ∧ g' = after next g0 (pos a.mmax (a.lmax + 1).toNat) ∧ a'.WF ∧
      a'.lmax = a.lmax ∧ a'.mmax = a.mmax ∧
      Holds a' (compT (out next g0) a.mmax (fun l => √(tt.getD l 0)) 0) := by
  have h0 := ha.1
  have h1 := ha.2.1
  obtain ⟨s, h1, h2, h3⟩ := forN_inv (a.lmax + 1).toNat (rowT next tt) (g0, a)
    (fun l s => s.1 = after next g0 (pos a.mmax l) ∧
      Upto a s.2 l 0 (val (compT (out next g0) a.mmax (fun l => √(tt.getD l 0)) 0)))
    ⟨rfl, Upto.start ha _⟩ (by
      rintro l s hl ⟨i1, i2⟩
      have hlt : l < tt.length := by omega
      have := rowT_ok next g0 tt a (fun l => √(tt.getD l 0)) (l := l) (by omega) h0 (rd_nat hlt)
        (by simp [hlt]) i1 i2
      simpa using this)
  rw [show (((a.lmax + 1).toNat : ℕ) : ℤ) = a.lmax + 1 by omega] at h3
  exact ⟨s.1, s.2, h1, h2, h3.wf, h3.lm, h3.mm, h3.holds⟩

/-! ### The polarised version -/

theorem row1_ok (next : G → ℝ × G) (g0 : G) (sp : Spec) (t0 e0 : Alm ℂ) (ra rb : ℕ → ℝ) {l : ℕ} (hl : (l : ℤ) ≤ t0.lmax)
    (h0 : 0 ≤ t0.mmax) (hc : conformable t0 e0) (hr : rms1 sp l = ok (ra l, rb l)) {s : G × Alm ℂ × Alm ℂ}
    (hs1 : s.1 = after next g0 (pos t0.mmax l)) (hs2 : Upto t0 s.2.1 l 0 (val (compT (out next g0) t0.mmax ra 0)))
    (hs3 : Upto e0 s.2.2 l 0 (val (compT (out next g0) t0.mmax rb 0))) :
    ∃ s', row1 next sp t0.mmax l s = ok s' ∧ s'.1 = after next g0 (pos t0.mmax (l + 1)) ∧
      Upto t0 s'.2.1 ((l : ℤ) + 1) 0 (val (compT (out next g0) t0.mmax ra 0)) ∧
      Upto e0 s'.2.2 ((l : ℤ) + 1) 0 (val (compT (out next g0) t0.mmax rb 0)) := by
  obtain ⟨cl, cm⟩ := hc
  set x := compT (out next g0) t0.mmax ra 0 with hx
  set y := compT (out next g0) t0.mmax rb 0 with hy
  obtain ⟨b, hb, hb2⟩ := hs2.put ⟨le_rfl, h0, by omega, hl⟩
  obtain ⟨d, hd, hd2⟩ := hs3.put ⟨le_rfl, by omega, by omega, by omega⟩
  have e0' : val x l 0 = (((next s.1).1 * ra l : ℝ) : ℂ) := by
    rw [val_zero, hx, hs1]
    unfold compT out
    rw [show 0 + pos t0.mmax l + 0 = pos t0.mmax l by omega, mul_comm]
  have f0' : val y l 0 = (((next s.1).1 * rb l : ℝ) : ℂ) := by
    rw [val_zero, hy, hs1]
    unfold compT out
    rw [show 0 + pos t0.mmax l + 0 = pos t0.mmax l by omega, mul_comm]
  obtain ⟨s', h1, h2, h3, h4⟩ := forN_inv (min (l : ℤ) t0.mmax).toNat (step1 next l (ra l, rb l)) ((next s.1).2, b, d)
    (fun n s => s.1 = after next g0 (pos t0.mmax l + 1 + 2 * n) ∧ Upto t0 s.2.1 l ((n : ℤ) + 1) (val x) ∧
      Upto e0 s.2.2 l ((n : ℤ) + 1) (val y))
    ⟨by rw [hs1, after_succ], by simpa using hb2, by simpa using hd2⟩ (by
      rintro k ⟨g, a, c⟩ hk ⟨i1, i2, i3⟩
      dsimp only at i1 i2 i3
      obtain ⟨b', hb', hb2'⟩ := i2.put ⟨by omega, by omega, by omega, hl⟩
      obtain ⟨d', hd', hd2'⟩ := i3.put ⟨by omega, by omega, by omega, by omega⟩
      have e : val x l ((k : ℤ) + 1) = ⟨(next g).1 * hs * ra l, (next (next g).2).1 * hs * ra l⟩ := by
        rw [val_succ, hx, i1, after_succ]
        unfold compT out
        rw [show 0 + pos t0.mmax l + (1 + 2 * k) = pos t0.mmax l + 1 + 2 * k by omega,
          show 0 + pos t0.mmax l + (1 + 2 * k + 1) = pos t0.mmax l + 1 + 2 * k + 1 by omega]
        congr 1 <;> ring
      have f : val y l ((k : ℤ) + 1) = ⟨(next g).1 * hs * rb l, (next (next g).2).1 * hs * rb l⟩ := by
        rw [val_succ, hy, i1, after_succ]
        unfold compT out
        rw [show 0 + pos t0.mmax l + (1 + 2 * k) = pos t0.mmax l + 1 + 2 * k by omega,
          show 0 + pos t0.mmax l + (1 + 2 * k + 1) = pos t0.mmax l + 1 + 2 * k + 1 by omega]
        congr 1 <;> ring
      refine ⟨_, by unfold step1; dsimp only; rw [← e, hb', ok_bind, ← f, hd', ok_bind], ?_, ?_, ?_⟩
      · dsimp only
        rw [i1, after_succ, after_succ]
        rfl
      · simpa using hb2'
      · simpa using hd2')
  refine ⟨s', ?_, ?_, h3.row (by omega), h4.row (by omega)⟩
  · unfold row1
    rw [hr, ok_bind]
    dsimp only
    rw [← e0', hb, ok_bind, ← f0', hd, ok_bind]
    exact h1
  · rw [h2, pos_succ]
    unfold comps
    congr 1
    omega

/-- Where, among the numbers drawn for one degree in the second pass, component `i` of the two fields comes from. -/
def idxG (i : ℕ) : ℕ := if i = 0 then 0 else 2 + 4 * ((i - 1) / 2) + (i - 1) % 2
@[inherit_doc idxG] def idxC (i : ℕ) : ℕ := if i = 0 then 1 else 4 + 4 * ((i - 1) / 2) + (i - 1) % 2

/-- The components of the gradient field. -/
noncomputable def compG (z : ℕ → ℝ) (M : ℤ) (ra rb : ℕ → ℝ) (p : ℕ) (l i : ℕ) : ℝ :=
  ra l * z (pos M l + i) + rb l * z (p + 2 * pos M l + idxG i)

/-- The components of the curl field. -/
noncomputable def compC (z : ℕ → ℝ) (M : ℤ) (r : ℕ → ℝ) (p : ℕ) (l i : ℕ) : ℝ := r l * z (p + 2 * pos M l + idxC i)

theorem after_after (next : G → ℝ × G) (g : G) (m n : ℕ) : after next (after next g m) n = after next g (m + n) := by
  unfold after
  rw [← Function.iterate_add_apply, add_comm]

theorem idxG_re (k : ℕ) : idxG (1 + 2 * k) = 2 + 4 * k := by unfold idxG; rw [if_neg (by omega)]; omega
theorem idxG_im (k : ℕ) : idxG (1 + 2 * k + 1) = 2 + 4 * k + 1 := by unfold idxG; rw [if_neg (by omega)]; omega
theorem idxC_re (k : ℕ) : idxC (1 + 2 * k) = 2 + 4 * k + 1 + 1 := by unfold idxC; rw [if_neg (by omega)]; omega
theorem idxC_im (k : ℕ) : idxC (1 + 2 * k + 1) = 2 + 4 * k + 1 + 1 + 1 := by unfold idxC; rw [if_neg (by omega)]; omega

theorem row2_ok (next : G → ℝ × G) (g0 : G) (sp : Spec) (e0 b0 : Alm ℂ) (ra rb rc : ℕ → ℝ) (p : ℕ) {l : ℕ} (hl : (l : ℤ) ≤ e0.lmax)
    (h0 : 0 ≤ e0.mmax) (hc : conformable e0 b0) (hr : rms2 sp l = ok (rb l, rc l)) {s : G × Alm ℂ × Alm ℂ}
    (he : ∀ i j, Valid e0.lmax e0.mmax i j → e0.get i j = ok (val (compT (out next g0) e0.mmax ra 0) i j))
    (hs1 : s.1 = after next g0 (p + 2 * pos e0.mmax l))
    (hs2 : Upto e0 s.2.1 l 0 (val (compG (out next g0) e0.mmax ra rb p)))
    (hs3 : Upto b0 s.2.2 l 0 (val (compC (out next g0) e0.mmax rc p))) :
    ∃ s', row2 next sp e0.mmax l s = ok s' ∧ s'.1 = after next g0 (p + 2 * pos e0.mmax (l + 1)) ∧
      Upto e0 s'.2.1 ((l : ℤ) + 1) 0 (val (compG (out next g0) e0.mmax ra rb p)) ∧
      Upto b0 s'.2.2 ((l : ℤ) + 1) 0 (val (compC (out next g0) e0.mmax rc p)) := by
  obtain ⟨cl, cm⟩ := hc
  set w := compT (out next g0) e0.mmax ra 0 with hw
  set x := compG (out next g0) e0.mmax ra rb p with hx
  set y := compC (out next g0) e0.mmax rc p with hy
  have hv0 : Valid e0.lmax e0.mmax l 0 := ⟨le_rfl, h0, by omega, hl⟩
  obtain ⟨b, hb, hb2⟩ := hs2.put hv0
  obtain ⟨d, hd, hd2⟩ := hs3.put ⟨le_rfl, by omega, by omega, by omega⟩
  have g0' : s.2.1.get l 0 = ok (val w l 0) := by rw [hs2.old l 0 hv0 (by omega), he l 0 hv0]
  have e0' : val x l 0 = val w l 0 + (((next s.1).1 * rb l : ℝ) : ℂ) := by
    rw [val_zero, val_zero, hx, hw, hs1, ← Complex.ofReal_add]
    unfold compG compT out idxG
    rw [show 0 + pos e0.mmax l + 0 = pos e0.mmax l + 0 by omega, if_pos rfl, mul_comm (rb l)]
    rfl
  have f0' : val y l 0 = (((next (next s.1).2).1 * rc l : ℝ) : ℂ) := by
    rw [val_zero, hy, hs1, after_succ]
    unfold compC out idxC
    rw [if_pos rfl, mul_comm]
  obtain ⟨s', h1, h2, h3, h4⟩ := forN_inv (min (l : ℤ) e0.mmax).toNat (step2 next l (rb l, rc l)) ((next (next s.1).2).2, b, d)
    (fun n s => s.1 = after next g0 (p + 2 * pos e0.mmax l + (2 + 4 * n)) ∧ Upto e0 s.2.1 l ((n : ℤ) + 1) (val x) ∧
      Upto b0 s.2.2 l ((n : ℤ) + 1) (val y))
    ⟨by rw [hs1, after_succ, after_succ], by simpa using hb2, by simpa using hd2⟩ (by
      rintro k ⟨g, a, c⟩ hk ⟨i1, i2, i3⟩
      dsimp only at i1 i2 i3
      have hvk : Valid e0.lmax e0.mmax l ((k : ℤ) + 1) := ⟨by omega, by omega, by omega, hl⟩
      obtain ⟨b', hb', hb2'⟩ := i2.put hvk
      obtain ⟨d', hd', hd2'⟩ := i3.put ⟨by omega, by omega, by omega, by omega⟩
      have gk : a.get l ((k : ℤ) + 1) = ok (val w l ((k : ℤ) + 1)) := by rw [i2.old l _ hvk (by omega), he l _ hvk]
      have e : val x l ((k : ℤ) + 1) = val w l ((k : ℤ) + 1) + ⟨(next g).1 * hs * rb l, (next (next g).2).1 * hs * rb l⟩ := by
        rw [val_succ, val_succ, hx, hw, i1, after_succ]
        unfold compG compT out
        rw [idxG_re, idxG_im, show 0 + pos e0.mmax l + (1 + 2 * k) = pos e0.mmax l + (1 + 2 * k) by omega,
          show 0 + pos e0.mmax l + (1 + 2 * k + 1) = pos e0.mmax l + (1 + 2 * k + 1) by omega]
        apply Complex.ext <;> simp only [Complex.add_re, Complex.add_im] <;> simp only [← add_assoc] <;> ring
      have f : val y l ((k : ℤ) + 1) = ⟨(next (next (next g).2).2).1 * hs * rc l,
          (next (next (next (next g).2).2).2).1 * hs * rc l⟩ := by
        rw [val_succ, hy, i1, after_succ, after_succ, after_succ]
        unfold compC out
        rw [idxC_re, idxC_im]
        congr 1 <;> simp only [← add_assoc] <;> ring
      refine ⟨_, by unfold step2; dsimp only; rw [gk, ok_bind, ← e, hb', ok_bind, ← f, hd', ok_bind], ?_, ?_, ?_⟩
      · dsimp only
        rw [i1, after_succ, after_succ, after_succ, after_succ]
        rfl
      · simpa using hb2'
      · simpa using hd2')
  refine ⟨s', ?_, ?_, h3.row (by omega), h4.row (by omega)⟩
  · unfold row2
    rw [hr, ok_bind]
    dsimp only
    rw [g0', ok_bind, ← e0', hb, ok_bind, ← f0', hd, ok_bind]
    exact h1
  · rw [h2, pos_succ]
    unfold comps
    congr 1
    omega

/-- What `create_alm_pol` leaves behind. -/
theorem createPol_ok (next : G → ℝ × G) (g0 : G) (sp : Spec) (t e b : Alm ℂ) (ht : t.WF) (he : e.WF) (hb : b.WF)
    (hce : conformable t e) (hcb : conformable t b) (rt ra rb rc : ℕ → ℝ)
    (h1 : ∀ l : ℕ, (l : ℤ) ≤ t.lmax → rms1 sp l = ok (rt l, ra l))
    (h2 : ∀ l : ℕ, (l : ℤ) ≤ t.lmax → rms2 sp l = ok (rb l, rc l)) :
    ∃ g' t' e' b', createPol next sp g0 t e b = ok (g', t', e', b') ∧
      g' = after next g0 (3 * pos t.mmax (t.lmax + 1).toNat) ∧ (t'.WF ∧ conformable t t') ∧ (e'.WF ∧ conformable t e') ∧
      (b'.WF ∧ conformable t b') ∧ Holds t' (compT (out next g0) t.mmax rt 0) ∧
      Holds e' (compG (out next g0) t.mmax ra rb (pos t.mmax (t.lmax + 1).toNat)) ∧
      Holds b' (compC (out next g0) t.mmax rc (pos t.mmax (t.lmax + 1).toNat)) := by
  have h0 := ht.1
  have hlm := ht.2.1
  have hN : (((t.lmax + 1).toNat : ℕ) : ℤ) = t.lmax + 1 := by omega
  set P := pos t.mmax (t.lmax + 1).toNat with hP
  obtain ⟨cl, cm⟩ := hce
  obtain ⟨dl, dm⟩ := hcb
  obtain ⟨s, p1, p2, p3, p4⟩ := forN_inv (t.lmax + 1).toNat (row1 next sp t.mmax) (g0, t, e)
    (fun l s => s.1 = after next g0 (pos t.mmax l) ∧ Upto t s.2.1 l 0 (val (compT (out next g0) t.mmax rt 0)) ∧
      Upto e s.2.2 l 0 (val (compT (out next g0) t.mmax ra 0)))
    ⟨rfl, Upto.start ht _, Upto.start he _⟩ (by
      rintro l s hl ⟨i1, i2, i3⟩
      have := row1_ok next g0 sp t e rt ra (l := l) (by omega) h0 ⟨cl, cm⟩ (h1 l (by omega)) i1 i2 i3
      simpa using this)
  rw [hN] at p3 p4
  have el : s.2.2.lmax = t.lmax := by rw [p4.lm, cl]
  have em : s.2.2.mmax = t.mmax := by rw [p4.mm, cm]
  obtain ⟨u, q1, q2, q3, q4⟩ := forN_inv (t.lmax + 1).toNat (row2 next sp t.mmax) (s.1, s.2.2, b)
    (fun l u => u.1 = after next g0 (P + 2 * pos t.mmax l) ∧ Upto s.2.2 u.2.1 l 0 (val (compG (out next g0) t.mmax ra rb P)) ∧
      Upto b u.2.2 l 0 (val (compC (out next g0) t.mmax rc P)))
    ⟨p2, Upto.start p4.wf _, Upto.start hb _⟩ (by
      rintro l u hl ⟨i1, i2, i3⟩
      have := row2_ok next g0 sp s.2.2 b ra rb rc P (l := l) (s := u) (by omega) (by omega)
        ⟨by omega, by omega⟩ (h2 l (by omega)) (by
          intro i j hv
          rw [em]
          unfold Valid at hv
          exact p4.new i j (by unfold Valid; omega) (by omega)) (by rw [em]; exact i1) (by rw [em]; exact i2) (by rw [em]; exact i3)
      rw [em] at this
      simpa using this)
  rw [hN] at q3 q4
  refine ⟨u.1, s.2.1, u.2.1, u.2.2, ?_, ?_, ⟨p3.wf, p3.lm.symm, p3.mm.symm⟩, ⟨q3.wf, ?_, ?_⟩, ⟨q4.wf, ?_, ?_⟩, p3.holds, ?_, ?_⟩
  · unfold createPol
    rw [p1, ok_bind, q1, ok_bind]
  · rw [q2, ← hP]
    congr 1
    omega
  · rw [q3.lm, el]
  · rw [q3.mm, em]
  · rw [q4.lm, dl]
  · rw [q4.mm, dm]
  · rw [← el] at q3
    exact q3.holds
  · rw [dl] at q4
    exact q4.holds

end Verif.SkyGen
