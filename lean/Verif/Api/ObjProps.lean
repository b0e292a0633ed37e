import Verif.Api.Objects

/-! # C22, C32, C33: normalisation, smoothing, monopole and dipole removal -/

namespace Verif.Obj
open Verif Res Verif.Harm

/-! ## C22 -/

/-- Specification: `b` is `a` with every coefficient multiplied by the real number `s`. -/
def ScaledBy (s : ℝ) (a b : Alm ℂ) : Prop :=
  b.lmax = a.lmax ∧ b.mmax = a.mmax ∧
  ∀ l m, Valid a.lmax a.mmax l m → ∀ x : ℂ, a.get l m = ok x → b.get l m = ok (x * (s : ℂ))

theorem scaledBy_scale {a : Alm ℂ} (h : a.WF) (s : ℝ) : ScaledBy s a (a.scale (mulR s)) :=
  ⟨rfl, rfl, fun _ _ hv _ hx => Alm.scale_get h _ hv hx⟩

/-- C22: normalising an unnormalised beam whose monopole is not zero makes `2 √π b_00 = 1`, scales all components by the
factor it returns, and marks the beam as normalised; limits and polarisation are unchanged. -/
theorem C22_normalize (b : Beam) (p : Bool) (c : ℂ) (hT : b.T.WF) (hG : b.G.WF) (hC : b.C.WF)
    (hn : b.normalized = false) (hp : b.pol = some p) (hc : b.T.get 0 0 = ok c) (hre : c.re ≠ 0) :
    ∃ s b', normalize b = ok (s, b') ∧ b'.normalized = true ∧
      (∃ c', b'.T.get 0 0 = ok c' ∧ 2 * √Real.pi * c'.re = 1) ∧ s * (2 * √Real.pi * c.re) = 1 ∧
      ScaledBy s b.T b'.T ∧
      (p = true → ScaledBy s b.G b'.G ∧ ScaledBy s b.C b'.C) ∧ (p = false → b'.G = b.G ∧ b'.C = b.C) ∧
      b'.lmax = b.lmax ∧ b'.mmax = b.mmax ∧ b'.pol = b.pol := by
  have h0 : 0 ≤ b.T.lmax := le_trans hT.1 hT.2.1
  have hpi : √Real.pi ≠ 0 := (Real.sqrt_pos.mpr Real.pi_pos).ne'
  have hs : 1 / (2 * √Real.pi * c.re) * (2 * √Real.pi * c.re) = 1 := by
    field_simp
  refine ⟨1 / (2 * √Real.pi * c.re), { b with
        T := b.T.scale (mulR (1 / (2 * √Real.pi * c.re)))
        G := if p then b.G.scale (mulR (1 / (2 * √Real.pi * c.re))) else b.G
        C := if p then b.C.scale (mulR (1 / (2 * √Real.pi * c.re))) else b.C
        normalized := true }, ?_, rfl, ?_, hs, ?_⟩
  · unfold normalize
    rw [if_neg (by rw [hn]; decide), if_pos h0, hc, ok_bind]
    simp only [hp]
  · refine ⟨_, Alm.scale_get hT _ ⟨le_refl _, hT.1, le_refl _, h0⟩ hc, ?_⟩
    unfold mulR
    rw [Complex.re_mul_ofReal]
    linear_combination hs
  · refine ⟨scaledBy_scale hT _, ?_, ?_, rfl, rfl, rfl⟩
    · rintro rfl
      exact ⟨scaledBy_scale hG _, scaledBy_scale hC _⟩
    · rintro rfl
      exact ⟨rfl, rfl⟩

/-- Operations on a beam other than `read`: `normalize()` and arbitrary changes through the references handed out by
`blmT()`, `blmG()`, `blmC()` (src/conviqt_io.cpp:82-100; the latter two throw for an unpolarised beam, without effect). -/
inductive BeamOp where
  | normalize
  | setT (a : Alm ℂ)
  | setG (a : Alm ℂ)
  | setC (a : Alm ℂ)

/-- Effect of an operation. -/
noncomputable def BeamOp.run (b : Beam) : BeamOp → Res Beam
  | .normalize => do let r ← Obj.normalize b; ok r.2
  | .setT a => ok { b with T := a }
  | .setG a => if b.pol = some true then ok { b with G := a } else ok b
  | .setC a => if b.pol = some true then ok { b with C := a } else ok b

/-- C22: once a beam is normalised, then after any history of operations other than `read`, a further `normalize()`
returns 1 and changes nothing. -/
theorem C22_idempotent (b : Beam) (h : b.normalized = true) (ops : List BeamOp) :
    ∃ b', foldRes BeamOp.run b ops = ok b' ∧ normalize b' = ok (1, b') := by
  have hnorm : ∀ b : Beam, b.normalized = true → normalize b = ok (1, b) := by
    intro b hb; unfold normalize; rw [if_pos hb]
  have key : ∀ (ops : List BeamOp) (b : Beam), b.normalized = true →
      ∃ b', foldRes BeamOp.run b ops = ok b' ∧ b'.normalized = true := by
    intro ops
    induction ops with
    | nil => intro b hb; exact ⟨b, rfl, hb⟩
    | cons o os ih =>
      intro b hb
      have hstep : ∃ b1, BeamOp.run b o = ok b1 ∧ b1.normalized = true := by
        cases o with
        | normalize => exact ⟨b, by unfold BeamOp.run; rw [hnorm b hb]; rfl, hb⟩
        | setT a => exact ⟨_, rfl, hb⟩
        | setG a =>
          simp only [BeamOp.run]
          split
          · exact ⟨_, rfl, hb⟩
          · exact ⟨_, rfl, hb⟩
        | setC a =>
          simp only [BeamOp.run]
          split
          · exact ⟨_, rfl, hb⟩
          · exact ⟨_, rfl, hb⟩
      obtain ⟨b1, h1, hb1⟩ := hstep
      obtain ⟨b', h2, hb'⟩ := ih b1 hb1
      exact ⟨b', by rw [foldRes_cons, h1]; exact h2, hb'⟩
  obtain ⟨b', h1, h2⟩ := key ops b h
  exact ⟨b', h1, hnorm b' h2⟩

/-- A polarised beam with `lmax = 1`, `mmax = 0`. -/
noncomputable def beamEx : Beam :=
  ⟨⟨1, 0, [2, 3]⟩, ⟨1, 0, [0, 1]⟩, ⟨1, 0, [5, 7]⟩, false, some 1, some 0, some true⟩

/-- non-vacuity of `C22_normalize` and `C22_idempotent` -/
example : ∃ s b', normalize beamEx = ok (s, b') ∧ b'.normalized = true ∧ s * (2 * √Real.pi * 2) = 1 ∧
    b'.C.get 1 0 = ok (7 * (s : ℂ)) := by
  have hw : ∀ x y : ℂ, (⟨1, 0, [x, y]⟩ : Alm ℂ).WF := by
    intro x y; exact ⟨le_refl _, zero_le_one, by simp [numAlms]⟩
  obtain ⟨s, b', h1, h2, -, h3, -, h4, -⟩ := C22_normalize beamEx true 2 (hw _ _) (hw _ _) (hw _ _) rfl rfl rfl
    (by norm_num)
  exact ⟨s, b', h1, h2, by simpa using h3, (h4 rfl).2.2.2 1 0 ⟨le_refl _, le_refl _, by decide, le_refl _⟩ 7 rfl⟩

/-! ## C33 -/

/-- The two removal calls. -/
inductive SkyOp where
  | monopole
  | dipole
  deriving DecidableEq

/-- Effect of a call. -/
noncomputable def SkyOp.run (s : Sky) : SkyOp → Res Sky
  | .monopole => removeMonopole s
  | .dipole => removeDipole s

/-- Specification: the coefficients a call removes. -/
def SkyOp.hits (o : SkyOp) (l m : Int) : Prop :=
  match o with
  | .monopole => l = 0 ∧ m = 0
  | .dipole => l = 1 ∧ (m = 0 ∨ m = 1)

instance (o : SkyOp) (l m : Int) : Decidable (o.hits l m) := by
  cases o <;> unfold SkyOp.hits <;> infer_instance

/-- `b` is `a` with the coefficients in `P` set to zero. -/
def ZeroedAt (P : Int → Int → Prop) (a b : Alm ℂ) : Prop :=
  b.WF ∧ b.lmax = a.lmax ∧ b.mmax = a.mmax ∧
  ∀ l m, Valid a.lmax a.mmax l m → (P l m → b.get l m = ok 0) ∧ (¬ P l m → b.get l m = a.get l m)

theorem ZeroedAt.trans {P Q R : Int → Int → Prop} {a b c : Alm ℂ} (h1 : ZeroedAt P a b) (h2 : ZeroedAt Q b c)
    (hR : ∀ l m, R l m ↔ P l m ∨ Q l m) : ZeroedAt R a c := by
  obtain ⟨w1, l1, m1, e1⟩ := h1
  obtain ⟨w2, l2, m2, e2⟩ := h2
  refine ⟨w2, l2.trans l1, m2.trans m1, fun l m hv => ?_⟩
  have hv' : Valid b.lmax b.mmax l m := by rw [l1, m1]; exact hv
  constructor
  · intro h
    by_cases hQ : Q l m
    · exact (e2 l m hv').1 hQ
    · rw [(e2 l m hv').2 hQ]
      exact (e1 l m hv).1 (((hR l m).mp h).resolve_right hQ)
  · intro h
    rw [(e2 l m hv').2 (fun hq => h ((hR l m).mpr (.inr hq))), (e1 l m hv).2 (fun hp => h ((hR l m).mpr (.inl hp)))]

theorem ZeroedAt.put {a : Alm ℂ} (ha : a.WF) {l0 m0 : Int} (hv0 : Valid a.lmax a.mmax l0 m0) :
    ∃ b, a.put l0 m0 0 = ok b ∧ ZeroedAt (fun l m => l = l0 ∧ m = m0) a b := by
  have hp := a.put_ok ha hv0 0
  refine ⟨_, hp, (a.put_wf ha hp).1, rfl, rfl, fun l m hv => ⟨?_, ?_⟩⟩
  · rintro ⟨rfl, rfl⟩
    exact Alm.get_put_same hp
  · intro h
    exact Alm.get_put_other ha hv0 hv (by rintro ⟨⟩; exact h ⟨rfl, rfl⟩) hp

theorem skyOp_run (s : Sky) (h : s.T.WF) (o : SkyOp) :
    ∃ s', SkyOp.run s o = ok s' ∧ ZeroedAt o.hits s.T s'.T ∧ s' = { s with T := s'.T } := by
  have h0 : 0 ≤ s.T.lmax := le_trans h.1 h.2.1
  cases o with
  | monopole =>
    obtain ⟨b, hb, hz⟩ := ZeroedAt.put h (l0 := 0) (m0 := 0) ⟨le_refl _, h.1, le_refl _, h0⟩
    refine ⟨{ s with T := b }, ?_, hz, rfl⟩
    unfold SkyOp.run removeMonopole
    simp only
    rw [if_pos h0, hb]; rfl
  | dipole =>
    by_cases h1 : 1 ≤ s.T.lmax
    · obtain ⟨b, hb, hz⟩ := ZeroedAt.put h (l0 := 1) (m0 := 0) ⟨le_refl _, h.1, by decide, h1⟩
      have hbm : b.mmax = s.T.mmax := hz.2.2.1
      have hbl : b.lmax = s.T.lmax := hz.2.1
      by_cases h2 : 1 ≤ s.T.mmax
      · obtain ⟨c, hc, hz'⟩ := ZeroedAt.put hz.1 (l0 := 1) (m0 := 1) ⟨by decide, by omega, le_refl _, by omega⟩
        refine ⟨{ s with T := c }, ?_, hz.trans hz' ?_, rfl⟩
        · unfold SkyOp.run removeDipole
          simp only
          rw [if_pos h1, hb, ok_bind, if_pos (by omega), hc]; rfl
        · intro l m
          unfold SkyOp.hits
          simp only
          omega
      · refine ⟨{ s with T := b }, ?_, ?_, rfl⟩
        · unfold SkyOp.run removeDipole
          simp only
          rw [if_pos h1, hb, ok_bind, if_neg (by omega)]
        · refine ⟨hz.1, hz.2.1, hz.2.2.1, fun l m hv => ?_⟩
          have e : SkyOp.dipole.hits l m ↔ (l = 1 ∧ m = 0) := by
            have := hv.2.1
            unfold SkyOp.hits; simp only; omega
          rw [e]
          exact hz.2.2.2 l m hv
    · refine ⟨s, ?_, ⟨h, rfl, rfl, fun l m hv => ⟨?_, fun _ => rfl⟩⟩, rfl⟩
      · unfold SkyOp.run removeDipole
        simp only
        rw [if_neg h1]
      · rintro ⟨rfl, -⟩
        exact absurd hv.2.2.2 h1

/-- C33: every sequence of `remove_monopole` and `remove_dipole` calls succeeds (no access out of bounds), zeroes exactly
the coefficients (0,0) if `remove_monopole` occurred and (1,0), (1,1) if `remove_dipole` occurred, and leaves all others,
the limits and the polarisation components unchanged. -/
theorem C33_remove (s : Sky) (h : s.T.WF) (ops : List SkyOp) :
    ∃ s', foldRes SkyOp.run s ops = ok s' ∧ s' = { s with T := s'.T } ∧ s'.T.WF ∧
      s'.T.lmax = s.T.lmax ∧ s'.T.mmax = s.T.mmax ∧
      ∀ l m, Valid s.T.lmax s.T.mmax l m →
        ((SkyOp.monopole ∈ ops ∧ l = 0 ∧ m = 0) ∨ (SkyOp.dipole ∈ ops ∧ l = 1 ∧ (m = 0 ∨ m = 1)) →
          s'.T.get l m = ok 0) ∧
        (¬ ((SkyOp.monopole ∈ ops ∧ l = 0 ∧ m = 0) ∨ (SkyOp.dipole ∈ ops ∧ l = 1 ∧ (m = 0 ∨ m = 1))) →
          s'.T.get l m = s.T.get l m) := by
  have key : ∀ (ops : List SkyOp) (s : Sky), s.T.WF → ∃ s', foldRes SkyOp.run s ops = ok s' ∧
      s' = { s with T := s'.T } ∧ ZeroedAt (fun l m => ∃ o ∈ ops, o.hits l m) s.T s'.T := by
    intro ops
    induction ops with
    | nil =>
      intro s hs
      exact ⟨s, rfl, rfl, hs, rfl, rfl, fun l m _ => ⟨(by rintro ⟨o, ho, -⟩; cases ho), fun _ => rfl⟩⟩
    | cons o os ih =>
      intro s hs
      obtain ⟨s1, h1, hz1, e1⟩ := skyOp_run s hs o
      obtain ⟨s2, h2, e2, hz2⟩ := ih s1 hz1.1
      refine ⟨s2, ?_, ?_, hz1.trans hz2 ?_⟩
      · rw [foldRes_cons, h1]; exact h2
      · rw [e2, e1]
      · intro l m
        constructor
        · rintro ⟨o', ho', hh⟩
          rcases List.mem_cons.mp ho' with rfl | hm
          · exact .inl hh
          · exact .inr ⟨o', hm, hh⟩
        · rintro (hh | ⟨o', hm, hh⟩)
          · exact ⟨o, List.mem_cons_self .., hh⟩
          · exact ⟨o', List.mem_cons_of_mem _ hm, hh⟩
  obtain ⟨s', h1, h2, w, hl, hm, hz⟩ := key ops s h
  refine ⟨s', h1, h2, w, hl, hm, fun l m hv => ?_⟩
  have e : (∃ o ∈ ops, o.hits l m) ↔ ((SkyOp.monopole ∈ ops ∧ l = 0 ∧ m = 0) ∨
      (SkyOp.dipole ∈ ops ∧ l = 1 ∧ (m = 0 ∨ m = 1))) := by
    constructor
    · rintro ⟨o, ho, hh⟩
      cases o with
      | monopole => exact .inl ⟨ho, hh⟩
      | dipole => exact .inr ⟨ho, hh⟩
    · rintro (⟨ho, hh⟩ | ⟨ho, hh⟩)
      · exact ⟨_, ho, hh⟩
      · exact ⟨_, ho, hh⟩
  rw [← e]
  exact hz l m hv

/-- Monopole and dipole removal commute and are idempotent, as equations between objects. -/
theorem C33_commute (s : Sky) (h : s.T.WF) (ops ops' : List SkyOp) (he : ∀ o, o ∈ ops ↔ o ∈ ops') :
    foldRes SkyOp.run s ops = foldRes SkyOp.run s ops' := by
  obtain ⟨s1, h1, e1, w1, l1, m1, g1⟩ := C33_remove s h ops
  obtain ⟨s2, h2, e2, w2, l2, m2, g2⟩ := C33_remove s h ops'
  rw [h1, h2]
  have : s1.T = s2.T := by
    refine Alm.ext_get w1 w2 (by rw [l1, l2]) (by rw [m1, m2]) (fun l m hv => ?_)
    rw [l1, m1] at hv
    have a := g1 l m hv
    have b := g2 l m hv
    simp only [← he] at b
    by_cases hc : (SkyOp.monopole ∈ ops ∧ l = 0 ∧ m = 0) ∨ (SkyOp.dipole ∈ ops ∧ l = 1 ∧ (m = 0 ∨ m = 1))
    · rw [a.1 hc, b.1 hc]
    · rw [a.2 hc, b.2 hc]
  rw [e1, e2, this]

/-- non-vacuity of C33 -/
example : (⟨2, 1, [1, 2, 3, 4, 5]⟩ : Alm ℂ).WF := ⟨by decide, by decide, by simp [numAlms]⟩

/-! ## C32 -/

/-- Specification: width of the Gaussian of the given full width at half maximum, with the code's constant. -/
noncomputable def sigmaOf (fwhm : ℝ) : ℝ := fwhm / 2.3548200450309493

/-- Specification: window function of a Gaussian beam. -/
noncomputable def gaussWindow (sigma : ℝ) (l : ℤ) : ℝ := Real.exp (-(l * (l + 1) * sigma ^ 2) / 2)

theorem getD_lt {xs : List ℝ} {i : ℕ} (h : i < xs.length) : xs.getD i 0 = xs[i] := by
  rw [List.getD, List.getElem?_eq_getElem h]; rfl

theorem gaussArr_getD {lmax : ℤ} {fwhm : ℝ} {l : ℕ} (h : (l : ℤ) ≤ lmax) :
    (gaussArr lmax fwhm).getD l 0 =
      Real.exp (-0.5 * fctOf fwhm * l * (l + 1) * (fwhm * fwhm2sigma) * (fwhm * fwhm2sigma)) := by
  have h1 : l < (gaussArr lmax fwhm).length := by
    unfold gaussArr; rw [List.length_map, List.length_range]; omega
  rw [getD_lt h1]
  unfold gaussArr
  simp

theorem gaussArr_length (lmax : ℤ) (fwhm : ℝ) : (gaussArr lmax fwhm).length = (lmax + 1).toNat := by
  unfold gaussArr; simp

theorem fct_exp (fwhm : ℝ) (l : ℕ) :
    -0.5 * fctOf fwhm * l * (l + 1) * (fwhm * fwhm2sigma) * (fwhm * fwhm2sigma) =
      fctOf fwhm * (-(l * (l + 1) * sigmaOf fwhm ^ 2) / 2) := by
  unfold fwhm2sigma sigmaOf
  ring

theorem sigma_sq (fwhm : ℝ) : (fwhm * fwhm2sigma) * (fwhm * fwhm2sigma) = sigmaOf fwhm ^ 2 := by
  unfold fwhm2sigma sigmaOf
  ring

/-- The factor applied at degree `l`. -/
theorem scaleArr_spec {a : Alm ℂ} (ha : a.WF) (factor : List ℝ) (hl : a.lmax < factor.length) :
    ∃ b, scaleArr a factor = ok b ∧ b.WF ∧ b.lmax = a.lmax ∧ b.mmax = a.mmax ∧
      ∀ l m, Valid a.lmax a.mmax l m → ∀ x, a.get l m = ok x →
        b.get l m = ok (x * ((factor.getD l.toNat 0 : ℝ) : ℂ)) := by
  unfold scaleArr
  rw [if_pos hl]
  exact a.scaleL_ok ha _

/-- Specification: `b` is `a` with the coefficient of degree `l` multiplied by `f l`. -/
def ScaledByDegree (f : ℤ → ℝ) (a b : Alm ℂ) : Prop :=
  b.WF ∧ b.lmax = a.lmax ∧ b.mmax = a.mmax ∧
  ∀ l m, Valid a.lmax a.mmax l m → ∀ x : ℂ, a.get l m = ok x → b.get l m = ok (x * ((f l : ℝ) : ℂ))

theorem ScaledByDegree.inv {f g : ℤ → ℝ} {a b c : Alm ℂ} (ha : a.WF) (h1 : ScaledByDegree f a b)
    (h2 : ScaledByDegree g b c) (hfg : ∀ l, 0 ≤ l → f l * g l = 1) : c = a := by
  obtain ⟨w1, l1, m1, e1⟩ := h1
  obtain ⟨w2, l2, m2, e2⟩ := h2
  refine Alm.ext_get w2 ha (by rw [l2, l1]) (by rw [m2, m1]) (fun l m hv => ?_)
  rw [l2, m2, l1, m1] at hv
  obtain ⟨x, hx⟩ := a.get_ok ha hv
  rw [e2 l m (by rw [l1, m1]; exact hv) _ (e1 l m hv x hx), hx, mul_assoc, ← Complex.ofReal_mul, hfg l (by
    have := hv.1; have := hv.2.2.1; omega), Complex.ofReal_one, mul_one]

theorem ScaledByDegree.one {f : ℤ → ℝ} {a b : Alm ℂ} (ha : a.WF) (h1 : ScaledByDegree f a b)
    (hf : ∀ l, f l = 1) : b = a := by
  obtain ⟨w1, l1, m1, e1⟩ := h1
  refine Alm.ext_get w1 ha l1 m1 (fun l m hv => ?_)
  rw [l1, m1] at hv
  obtain ⟨x, hx⟩ := a.get_ok ha hv
  rw [e1 l m hv x hx, hx, hf, Complex.ofReal_one, mul_one]

/-- Specification: the factor of degree `l` for the intensity: the window, or its inverse for a negative width. -/
noncomputable def gaussFactor (fwhm : ℝ) (l : ℤ) : ℝ :=
  if 0 ≤ fwhm then gaussWindow (sigmaOf fwhm) l else (gaussWindow (sigmaOf fwhm) l)⁻¹

/-- Specification: the spin-2 correction. -/
noncomputable def polFactor (fwhm : ℝ) : ℝ :=
  if 0 ≤ fwhm then Real.exp (2 * sigmaOf fwhm ^ 2) else (Real.exp (2 * sigmaOf fwhm ^ 2))⁻¹

theorem gb_factor {lmax : ℤ} {fwhm : ℝ} {l : ℤ} (h0 : 0 ≤ l) (h : l ≤ lmax) :
    (gaussArr lmax fwhm).getD l.toNat 0 = gaussFactor fwhm l := by
  rw [gaussArr_getD (by omega), fct_exp]
  have hl : ((l.toNat : ℕ) : ℝ) = (l : ℝ) := by
    have : ((l.toNat : ℕ) : ℤ) = l := Int.toNat_of_nonneg h0
    exact_mod_cast congrArg (fun z : ℤ => (z : ℝ)) this
  rw [hl]
  unfold gaussFactor gaussWindow fctOf
  split
  · rw [one_mul]
  · rw [neg_one_mul, Real.exp_neg]

theorem smooth_spec {a : Alm ℂ} (ha : a.WF) (fwhm : ℝ) :
    ∃ b, smooth a fwhm = ok b ∧ ScaledByDegree (gaussFactor fwhm) a b := by
  have h0 : 0 ≤ a.lmax := le_trans ha.1 ha.2.1
  obtain ⟨b, h1, h2, h3, h4, h5⟩ := scaleArr_spec ha (gaussArr a.lmax fwhm) (by rw [gaussArr_length]; omega)
  refine ⟨b, h1, h2, h3, h4, fun l m hv x hx => ?_⟩
  have := h5 l m hv x hx
  rw [gb_factor (by have := hv.1; have := hv.2.2.1; omega) hv.2.2.2] at this
  exact this

theorem smoothPol_spec {T G C : Alm ℂ} (hT : T.WF) (hG : G.WF) (hC : C.WF) (eG : G.lmax = T.lmax)
    (eC : C.lmax = T.lmax) (fwhm : ℝ) :
    ∃ T' G' C', smoothPol T G C fwhm = ok (T', G', C') ∧ ScaledByDegree (gaussFactor fwhm) T T' ∧
      ScaledByDegree (fun l => gaussFactor fwhm l * polFactor fwhm) G G' ∧
      ScaledByDegree (fun l => gaussFactor fwhm l * polFactor fwhm) C C' := by
  have h0 : 0 ≤ T.lmax := le_trans hT.1 hT.2.1
  obtain ⟨T', t1, t2⟩ := smooth_spec hT fwhm
  have hp : Real.exp (2 * fctOf fwhm * (fwhm * fwhm2sigma) * (fwhm * fwhm2sigma)) = polFactor fwhm := by
    rw [mul_assoc, sigma_sq]
    unfold polFactor fctOf
    split
    · rw [mul_one]
    · rw [← Real.exp_neg]; congr 1; ring
  have hgen : ∀ A : Alm ℂ, A.WF → A.lmax = T.lmax → ∃ A',
      scaleArr A ((gaussArr T.lmax fwhm).map (fun x => x * polFactor fwhm)) = ok A' ∧
      ScaledByDegree (fun l => gaussFactor fwhm l * polFactor fwhm) A A' := by
    intro A hA eA
    obtain ⟨b, h1, h2, h3, h4, h5⟩ := scaleArr_spec hA ((gaussArr T.lmax fwhm).map (fun x => x * polFactor fwhm))
      (by rw [List.length_map, gaussArr_length]; omega)
    refine ⟨b, h1, h2, h3, h4, fun l m hv x hx => ?_⟩
    have h := h5 l m hv x hx
    have hl0 : 0 ≤ l := by have := hv.1; have := hv.2.2.1; omega
    have hl1 : l ≤ T.lmax := by have := hv.2.2.2; omega
    have hlen : l.toNat < (gaussArr T.lmax fwhm).length := by rw [gaussArr_length]; omega
    have e : ((gaussArr T.lmax fwhm).map (fun x => x * polFactor fwhm)).getD l.toNat 0 =
        gaussFactor fwhm l * polFactor fwhm := by
      rw [getD_lt (by rw [List.length_map]; exact hlen), List.getElem_map,
        ← gb_factor hl0 hl1 (fwhm := fwhm), getD_lt hlen]
    rw [e] at h
    exact h
  obtain ⟨G', g1, g2⟩ := hgen G hG eG
  obtain ⟨C', c1, c2⟩ := hgen C hC eC
  refine ⟨T', G', C', ?_, t2, g2, c2⟩
  unfold smoothPol
  unfold smooth at t1
  dsimp only
  rw [hp, t1, ok_bind, g1, ok_bind, c1, ok_bind]

/-- C32: smoothing multiplies the intensity coefficients by the window function of the Gaussian (its inverse for a
negative width), and the polarisation coefficients by that times the spin-2 factor: the factor depends only on `l`. -/
theorem C32_smooth (T G C : Alm ℂ) (hT : T.WF) (hG : G.WF) (hC : C.WF) (eG : G.lmax = T.lmax)
    (eC : C.lmax = T.lmax) (fwhm : ℝ) :
    (∃ T', smooth T fwhm = ok T' ∧ ScaledByDegree (gaussFactor fwhm) T T') ∧
    ∃ T' G' C', smoothPol T G C fwhm = ok (T', G', C') ∧ ScaledByDegree (gaussFactor fwhm) T T' ∧
      ScaledByDegree (fun l => gaussFactor fwhm l * polFactor fwhm) G G' ∧
      ScaledByDegree (fun l => gaussFactor fwhm l * polFactor fwhm) C C' :=
  ⟨smooth_spec hT fwhm, smoothPol_spec hT hG hC eG eC fwhm⟩

/-- C32: the factor of a non-negative width is in (0,1] and does not increase with `l`; for a positive width it decreases. -/
theorem C32_factor (fwhm : ℝ) (h : 0 ≤ fwhm) (l : ℤ) (hl : 0 ≤ l) :
    0 < gaussFactor fwhm l ∧ gaussFactor fwhm l ≤ 1 ∧ gaussFactor fwhm 0 = 1 ∧
      (0 < fwhm → gaussFactor fwhm (l + 1) < gaussFactor fwhm l) := by
  have hlr : (0 : ℝ) ≤ l := by exact_mod_cast hl
  have hs := sq_nonneg (sigmaOf fwhm)
  simp only [gaussFactor, if_pos h, gaussWindow]
  refine ⟨Real.exp_pos _, ?_, by simp, ?_⟩
  · rw [Real.exp_le_one_iff]
    have : 0 ≤ (l : ℝ) * (l + 1) * sigmaOf fwhm ^ 2 := by positivity
    linarith
  · intro hf
    have hp : 0 < sigmaOf fwhm ^ 2 := by unfold sigmaOf; positivity
    rw [Real.exp_lt_exp]
    push_cast
    nlinarith

theorem gaussFactor_neg (fwhm : ℝ) (l : ℤ) : gaussFactor fwhm l * gaussFactor (-fwhm) l = 1 := by
  have hs : sigmaOf (-fwhm) ^ 2 = sigmaOf fwhm ^ 2 := by unfold sigmaOf; ring
  have hw : gaussWindow (sigmaOf (-fwhm)) l = gaussWindow (sigmaOf fwhm) l := by unfold gaussWindow; rw [hs]
  have hne : gaussWindow (sigmaOf fwhm) l ≠ 0 := (Real.exp_pos _).ne'
  unfold gaussFactor
  rw [hw]
  rcases lt_trichotomy fwhm 0 with h | h | h
  · rw [if_neg (by linarith), if_pos (by linarith), inv_mul_cancel₀ hne]
  · subst h
    rw [if_pos (le_refl _), if_pos (by simp)]
    simp [gaussWindow, sigmaOf]
  · rw [if_pos h.le, if_neg (by linarith), mul_inv_cancel₀ hne]

theorem polFactor_neg (fwhm : ℝ) : polFactor fwhm * polFactor (-fwhm) = 1 := by
  have hs : sigmaOf (-fwhm) ^ 2 = sigmaOf fwhm ^ 2 := by unfold sigmaOf; ring
  have hne : Real.exp (2 * sigmaOf fwhm ^ 2) ≠ 0 := (Real.exp_pos _).ne'
  unfold polFactor
  rw [hs]
  rcases lt_trichotomy fwhm 0 with h | h | h
  · rw [if_neg (by linarith), if_pos (by linarith), inv_mul_cancel₀ hne]
  · subst h
    rw [if_pos (le_refl _), if_pos (by simp)]
    simp [sigmaOf]
  · rw [if_pos h.le, if_neg (by linarith), mul_inv_cancel₀ hne]

/-- C32: smoothing with `-fwhm` after smoothing with `fwhm` restores every coefficient of all components, for every
width (of either sign). -/
theorem C32_inverse (T G C : Alm ℂ) (hT : T.WF) (hG : G.WF) (hC : C.WF) (eG : G.lmax = T.lmax)
    (eC : C.lmax = T.lmax) (fwhm : ℝ) :
    (smooth T fwhm >>= fun T' => smooth T' (-fwhm)) = ok T ∧
    (smoothPol T G C fwhm >>= fun r => smoothPol r.1 r.2.1 r.2.2 (-fwhm)) = ok (T, G, C) := by
  constructor
  · obtain ⟨T1, t1, h1⟩ := smooth_spec hT fwhm
    obtain ⟨T2, t2, h2⟩ := smooth_spec h1.1 (-fwhm)
    rw [t1, ok_bind, t2, h1.inv hT h2 (fun l _ => gaussFactor_neg fwhm l)]
  · obtain ⟨T1, G1, C1, e1, t1, g1, c1⟩ := smoothPol_spec hT hG hC eG eC fwhm
    obtain ⟨T2, G2, C2, e2, t2, g2, c2⟩ := smoothPol_spec t1.1 g1.1 c1.1 (by rw [g1.2.1, t1.2.1, eG])
      (by rw [c1.2.1, t1.2.1, eC]) (-fwhm)
    have hp : ∀ l : ℤ, 0 ≤ l → gaussFactor fwhm l * polFactor fwhm * (gaussFactor (-fwhm) l * polFactor (-fwhm)) = 1 := by
      intro l _
      have a := gaussFactor_neg fwhm l
      have b := polFactor_neg fwhm
      linear_combination polFactor fwhm * polFactor (-fwhm) * a + b
    rw [e1, ok_bind]
    dsimp only
    rw [e2, t1.inv hT t2 (fun l _ => gaussFactor_neg fwhm l), g1.inv hG g2 hp, c1.inv hC c2 hp]

/-- C32: width 0 is the identity. -/
theorem C32_zero (T G C : Alm ℂ) (hT : T.WF) (hG : G.WF) (hC : C.WF) (eG : G.lmax = T.lmax)
    (eC : C.lmax = T.lmax) : smooth T 0 = ok T ∧ smoothPol T G C 0 = ok (T, G, C) := by
  have hf : ∀ l, gaussFactor 0 l = 1 := by intro l; simp [gaussFactor, gaussWindow, sigmaOf]
  have hp : polFactor 0 = 1 := by simp [polFactor, sigmaOf]
  constructor
  · obtain ⟨T1, t1, h1⟩ := smooth_spec hT 0
    rw [t1, h1.one hT hf]
  · obtain ⟨T1, G1, C1, e1, t1, g1, c1⟩ := smoothPol_spec hT hG hC eG eC 0
    rw [e1, t1.one hT hf, g1.one hG (fun l => by rw [hf, hp, mul_one]), c1.one hC (fun l => by rw [hf, hp, mul_one])]

/-- C32: the code's constant is `√(8 ln 2)` to better than 1e-8 in its square, so that `fwhm` is the full width at half
maximum of the Gaussian. -/
theorem C32_constant : |(2.3548200450309493 : ℝ) ^ 2 - 8 * Real.log 2| < 1 / 10 ^ 8 := by
  have h1 := Real.log_two_gt_d9
  have h2 := Real.log_two_lt_d9
  rw [abs_lt]
  constructor <;> norm_num at * <;> linarith

end Verif.Obj
