import Verif.Num.WignerPair

/-!
# The pair evaluation of the Wigner generator: proofs (C75)
-/

namespace Verif.Num
open Verif Res

/-- `2^-360`. -/
noncomputable def b360 : ℝ := 2 ^ (-360 : ℤ)

theorem b360_pos : 0 < b360 := by unfold b360; positivity

/-- Growth constant of the skipped elements before the threshold is crossed … -/
noncomputable def pK0 (lmax : ℕ) : ℝ := 2 * (lmax + 1) * b360

/-- … and after it. -/
noncomputable def pK1 (lmax : ℕ) : ℝ := (2 * lmax + 3) * pK0 lmax

/-- Bound of the elements the pair evaluation replaces by zero. -/
noncomputable def tiny2 (lmax : ℕ) : ℝ := pK1 lmax * (lmax + 1)

theorem pK0_pos (lmax : ℕ) : 0 < pK0 lmax := by unfold pK0; have := b360_pos; positivity

theorem pK0_le_pK1 (lmax : ℕ) : pK0 lmax ≤ pK1 lmax := by
  unfold pK1
  have := pK0_pos lmax
  have h : (0 : ℝ) ≤ lmax := Nat.cast_nonneg _
  nlinarith

/-- State of one component. -/
structure CompInv (d pv : ℕ → ℝ) (K : ℝ) (l : ℕ) (r1 r2 : ℝ) (s : ℤ) (c : ℝ) : Prop where
  s4 : s ≤ 4
  e1 : r1 * wS s = pv l
  e2 : r2 * wS s = d l
  hc : c = if s < 0 then 0 else wS s
  small : s < 0 → |d l| ≤ K * (l + 1) ∧ 2 * (l + 1) * |d l| + |pv l| ≤ K * (l + 2)

/-- A returned value: exact, or zero where the exact value is tiny. -/
def PairVal (d : ℕ → ℝ) (T : ℝ) (j : ℕ) (x : ℝ) : Prop := x = d j ∨ (x = 0 ∧ |d j| ≤ T)

section
variable {fx : List F3} {cth : ℝ} {mhi lmax : ℕ} {d pv : ℕ → ℝ} {K : ℝ} {l : ℕ} {r1 r2 : ℝ} {s : ℤ} {c : ℝ}

theorem CompInv.mono (h : CompInv d pv K l r1 r2 s c) {K' : ℝ} (hK : K ≤ K') : CompInv d pv K' l r1 r2 s c := by
  refine ⟨h.s4, h.e1, h.e2, h.hc, fun hs => ?_⟩
  obtain ⟨a, b⟩ := h.small hs
  have : (0 : ℝ) ≤ l := Nat.cast_nonneg _
  constructor <;> nlinarith

theorem CompInv.gv (h : CompInv d pv K l r1 r2 s c) {T : ℝ} (hT : K * (l + 1) ≤ T) : PairVal d T l (r2 * c) := by
  by_cases hs : s < 0
  · exact Or.inr ⟨by rw [h.hc, if_pos hs, mul_zero], (h.small hs).1.trans hT⟩
  · exact Or.inl (by rw [h.hc, if_neg hs, h.e2])

theorem CompInv.exact (h : CompInv d pv K l r1 r2 s c) (hc : c ≠ 0) : r1 * c = pv l ∧ r2 * c = d l := by
  have hs : ¬ s < 0 := fun hs => hc (by rw [h.hc, if_pos hs])
  rw [h.hc, if_neg hs]
  exact ⟨h.e1, h.e2⟩

theorem CompInv.mid (h : CompInv d pv K l r1 r2 s c) (hq : Seq fx cth mhi lmax d pv) (h1 : mhi ≤ l) (h2 : l < lmax) :
    ∃ x, stepRec fx cth ((l : ℤ) + 1) r2 r1 = ok x ∧ x * wS s = d (l + 1) ∧ (s < 0 → |d (l + 1)| ≤ K * (l + 2)) := by
  obtain ⟨x, e, f⟩ := hq.step1 h1 h2 h.e1 h.e2 (wS_pos s).ne'
  exact ⟨x, e, f, fun hs => (hq.growth l h1 h2).trans (h.small hs).2⟩

/-- The value of the odd steps. -/
theorem CompInv.midgv (h : CompInv d pv K l r1 r2 s c) {x : ℝ} (hx : x * wS s = d (l + 1)) (hb : s < 0 → |d (l + 1)| ≤ K * (l + 2))
    {T : ℝ} (hT : K * (l + 2) ≤ T) : PairVal d T (l + 1) (x * c) := by
  by_cases hs : s < 0
  · exact Or.inr ⟨by rw [h.hc, if_pos hs, mul_zero], (hb hs).trans hT⟩
  · exact Or.inl (by rw [h.hc, if_neg hs, hx])

theorem CompInv.swap (h : CompInv d pv (pK0 lmax) l r1 r2 s c) (hq : Seq fx cth mhi lmax d pv) (h1 : mhi ≤ l) (h2 : l < lmax) {x : ℝ}
    (hx : x * wS s = d (l + 1)) (hb : s < 0 → |d (l + 1)| ≤ pK0 lmax * (l + 2)) :
    CompInv d pv (pK1 lmax) (l + 1) r2 x s c := by
  refine ⟨h.s4, by rw [h.e2, hq.next l h1], hx, h.hc, fun hs => ?_⟩
  have a := (h.small hs).1
  have b := hb hs
  have hp := pK0_pos lmax
  have hl : (l : ℝ) + 1 ≤ lmax := by exact_mod_cast h2
  have hl0 : (0 : ℝ) ≤ l := Nat.cast_nonneg _
  rw [hq.next l h1]
  unfold pK1
  push_cast
  constructor
  · nlinarith [mul_nonneg hp.le hl0]
  · have h3 : 2 * ((l : ℝ) + 1 + 1) * |d (l + 1)| ≤ 2 * (lmax + 1) * (pK0 lmax * (l + 2)) :=
      mul_le_mul (by linarith) b (abs_nonneg _) (by positivity)
    have h4 : (0 : ℝ) ≤ lmax := Nat.cast_nonneg _
    have h5 : 0 ≤ pK0 lmax * lmax := by positivity
    nlinarith

/-- The same when the constant is already the larger one: only the exactness matters. -/
theorem CompInv.adv (h : CompInv d pv K l r1 r2 s c) (hq : Seq fx cth mhi lmax d pv) (h1 : mhi ≤ l) {x : ℝ}
    (hx : x * wS s = d (l + 1)) (hc : c ≠ 0) : CompInv d pv K (l + 1) r2 x s c := by
  have hs : ¬ s < 0 := fun hs => hc (by rw [h.hc, if_pos hs])
  exact ⟨h.s4, by rw [h.e2, hq.next l h1], hx, h.hc, fun h' => absurd h' hs⟩

theorem rd_cf {cf : List ℝ} (hcf : cf = (List.range 19).map (fun i : ℕ => (2 : ℝ) ^ (((i : ℤ) - 4) * 90))) {s : ℤ}
    (hs4 : s ≤ 4) : corOf cf s = ok (if s < 0 then 0 else wS s) := by
  unfold corOf
  split
  · rfl
  · rename_i h
    rw [hcf, rd_map_range (by omega) (by push_cast; omega)]
    unfold wS
    rw [Int.toNat_of_nonneg (by omega)]

theorem renormC_ok {cf : List ℝ} (hcf : cf = (List.range 19).map (fun i : ℕ => (2 : ℝ) ^ (((i : ℤ) - 4) * 90))) :
    ∀ (n : ℕ) (r1 r2 : ℝ) (s : ℤ) (c : ℝ), s ≤ 4 → 5 - s ≤ n → |r2| * wS s ≤ 1 → c = (if s < 0 then 0 else wS s) →
    ∃ r1' r2' s' c', renormC cf n r1 r2 s c = ok (r1', r2', s', c') ∧ s ≤ s' ∧ s' ≤ 4 ∧ |r2'| ≤ 2 ^ 90 ∧
      r1' * wS s' = r1 * wS s ∧ r2' * wS s' = r2 * wS s ∧ c' = (if s' < 0 then 0 else wS s') := by
  intro n
  induction n with
  | zero => intro r1 r2 s c h4 hn; exfalso; push_cast at hn; omega
  | succ n ih =>
    intro r1 r2 s c h4 hn hb hc
    unfold renormC
    split
    · rename_i hgt
      have hs : s + 1 ≤ 4 := by
        by_contra hc
        have h1 : wS 4 ≤ wS s := wS_mono (by omega)
        have h2 : wS 4 = 1 := by unfold wS; norm_num
        have h3 : (1:ℝ) < 2 ^ 90 := by norm_num
        have : 1 < |r2| * wS s := by nlinarith [abs_nonneg r2]
        linarith
      have hw : ∀ r : ℝ, r * (2 : ℝ) ^ (-90 : ℤ) * wS (s + 1) = r * wS s := by
        intro r
        rw [wS_succ, show r * (2 : ℝ) ^ (-90 : ℤ) * (2 ^ 90 * wS s) = ((2 : ℝ) ^ (-90 : ℤ) * 2 ^ 90) * (r * wS s) by ring,
          small_mul, one_mul]
      have hb' : |r2 * (2 : ℝ) ^ (-90 : ℤ)| * wS (s + 1) ≤ 1 := by
        rw [abs_mul, abs_of_pos (by positivity : (0:ℝ) < (2 : ℝ) ^ (-90 : ℤ)), hw]; exact hb
      rw [rd_cf hcf hs, ok_bind]
      obtain ⟨r1', r2', s', c', e, a, b, c3, d1, d2, d3⟩ := ih (r1 * (2 : ℝ) ^ (-90 : ℤ)) (r2 * (2 : ℝ) ^ (-90 : ℤ)) (s + 1)
        (if s + 1 < 0 then 0 else wS (s + 1)) hs (by push_cast at hn; omega) hb' rfl
      exact ⟨r1', r2', s', c', e, by omega, b, c3, by rw [d1, hw], by rw [d2, hw], d3⟩
    · rename_i hle
      exact ⟨r1, r2, s, c, rfl, le_refl _, h4, not_lt.mp hle, rfl, rfl, hc⟩

/-- The even step with the renormalisation. -/
theorem CompInv.next2 (h : CompInv d pv K l r1 r2 s c) (hq : Seq fx cth mhi lmax d pv) (h1 : mhi ≤ l) (h2 : l + 1 < lmax)
    (hK : pK0 lmax ≤ K) {cf : List ℝ} (hcf : cf = (List.range 19).map (fun i : ℕ => (2 : ℝ) ^ (((i : ℤ) - 4) * 90)))
    {x : ℝ} (hx : x * wS s = d (l + 1)) (hb : s < 0 → |d (l + 1)| ≤ K * (l + 2)) :
    ∃ y, stepRec fx cth ((l : ℤ) + 2) x r2 = ok y ∧
      ∃ r1' r2' s' c', renormC cf (20 - s).toNat x y s c = ok (r1', r2', s', c') ∧ s ≤ s' ∧ CompInv d pv K (l + 2) r1' r2' s' c' := by
  have fp : r2 * wS s = pv (l + 1) := by rw [hq.next l h1, h.e2]
  obtain ⟨y, e, f⟩ := hq.step1 (l := l + 1) (by omega) (by omega) fp hx (wS_pos s).ne'
  rw [show (((l + 1 : ℕ) : ℤ) + 1) = (l : ℤ) + 2 by push_cast; ring] at e
  have hbnd : |y| * wS s ≤ 1 := by
    rw [← abs_of_pos (wS_pos s), ← abs_mul, f]
    exact hq.bound _ (by omega) (by omega)
  have hs4 := h.s4
  obtain ⟨r1', r2', s', c', e', a, b4, c3, d1, d2, d3⟩ := renormC_ok hcf (20 - s).toNat x y s c hs4 (by omega) hbnd h.hc
  have hpn : pv (l + 2) = d (l + 1) := hq.next (l + 1) (by omega)
  refine ⟨y, e, r1', r2', s', c', e', a, b4, by rw [d1, hx, hpn], by rw [d2, f], d3, fun hs => ?_⟩
  have hcur : |d (l + 2)| ≤ b360 := by
    rw [← f, ← d2, abs_mul, abs_of_pos (wS_pos s')]
    have q1 : wS s' ≤ wS (-1) := wS_mono (by omega)
    have q2 : (2:ℝ) ^ 90 * wS (-1) = b360 := by
      rw [← wS_succ, b360]; unfold wS; norm_num
    calc |r2'| * wS s' ≤ 2 ^ 90 * wS (-1) := mul_le_mul c3 q1 (wS_pos s').le (by positivity)
      _ = b360 := q2
  have hm := hb (by omega)
  have hl : (l : ℝ) + 2 ≤ lmax := by exact_mod_cast h2
  have hl0 : (0 : ℝ) ≤ l := Nat.cast_nonneg _
  have hp := pK0_pos lmax
  have hK0 : 0 < K := by linarith
  have hb0 := b360_pos
  have hk : 2 * ((lmax : ℝ) + 1) * b360 ≤ K := hK
  rw [hpn]
  push_cast
  constructor
  · have : b360 ≤ K := by nlinarith
    nlinarith [mul_nonneg hK0.le hl0]
  · have h3 : 2 * ((l : ℝ) + 2 + 1) * |d (l + 2)| ≤ 2 * (lmax + 1) * b360 :=
      mul_le_mul (by linarith) hcur (abs_nonneg _) (by positivity)
    nlinarith

end

/-! ## both components -/

/-- The registers hold the coefficients of degree `lv`. -/
def IsPre (fx : List F3) (cth : V2) (lv : ℤ) (pre : Pre) : Prop :=
  ∃ f, rd fx lv = ok f ∧ pre = ((cth - (f.f1, f.f1)) * (f.f0, f.f0), (f.f2, f.f2))

theorem rd_in {fx : List F3} {lmax : ℕ} (hfx : fx.length = lmax + 2) {l : ℕ} (h : l ≤ lmax + 1) : ∃ f, rd fx (l : ℤ) = ok f :=
  ⟨_, rd_nat (by omega)⟩

theorem getPre_ok {fx : List F3} {lmax : ℕ} (hfx : fx.length = lmax + 2) (cth : V2) {l : ℕ} (h : l ≤ lmax) :
    ∃ pre, getPre fx cth ((l : ℤ) + 1) = ok pre ∧ IsPre fx cth ((l : ℤ) + 1) pre := by
  obtain ⟨f, hf⟩ := rd_in hfx (l := l + 1) (by omega)
  rw [show (((l + 1 : ℕ) : ℤ)) = (l : ℤ) + 1 by push_cast; ring] at hf
  exact ⟨_, by unfold getPre; rw [hf, ok_bind], f, hf, rfl⟩

theorem nextStep_ok {fx : List F3} {cth : V2} {lv : ℤ} {pre : Pre} (hp : IsPre fx cth lv pre) {lw : ℤ} {f : F3} (hf : rd fx lw = ok f)
    {reca recb : V2} {x y : ℝ} (hx : stepRec fx cth.1 lv recb.1 reca.1 = ok x) (hy : stepRec fx cth.2 lv recb.2 reca.2 = ok y) :
    ∃ pre', nextStep fx cth pre reca recb lw = ok ((x, y), pre') ∧ IsPre fx cth lw pre' := by
  obtain ⟨f0, hf0, rfl⟩ := hp
  refine ⟨((cth - (f.f1, f.f1)) * (f.f0, f.f0), (f.f2, f.f2)), ?_, f, hf, rfl⟩
  unfold stepRec at hx hy
  rw [hf0, ok_bind] at hx hy
  injection hx with hx
  injection hy with hy
  unfold nextStep
  rw [hf, ok_bind, ← hx, ← hy]
  rfl

/-- Everything the loops need. -/
structure PairCtx (g : Gen) (cth : V2) (mhi lmax : ℕ) (d1 pv1 d2 pv2 : ℕ → ℝ) : Prop where
  q1 : Seq g.fx cth.1 mhi lmax d1 pv1
  q2 : Seq g.fx cth.2 mhi lmax d2 pv2
  fxl : g.fx.length = lmax + 2
  cf : g.cf = (List.range 19).map (fun i : ℕ => (2 : ℝ) ^ (((i : ℤ) - 4) * 90))

/-- State of both components. -/
structure PairInv (d1 pv1 d2 pv2 : ℕ → ℝ) (K : ℝ) (l : ℕ) (p : PairSt) : Prop where
  l_eq : p.l = l
  a : CompInv d1 pv1 K l p.r1.1 p.r2.1 p.s1 p.c.1
  b : CompInv d2 pv2 K l p.r1.2 p.r2.2 p.s2 p.c.2

section
variable {g : Gen} {cth : V2} {mhi lmax : ℕ} {d1 pv1 d2 pv2 : ℕ → ℝ} {K : ℝ} {l : ℕ} {p : PairSt}

theorem PairInv.mid (h : PairInv d1 pv1 d2 pv2 K l p) (hg : PairCtx g cth mhi lmax d1 pv1 d2 pv2) (h1 : mhi ≤ l) (h2 : l < lmax) {pre : Pre}
    (hp : IsPre g.fx cth ((l : ℤ) + 1) pre) :
    ∃ x y pre', nextStep g.fx cth pre p.r1 p.r2 ((l : ℤ) + 2) = ok ((x, y), pre') ∧ IsPre g.fx cth ((l : ℤ) + 2) pre' ∧
      x * wS p.s1 = d1 (l + 1) ∧ (p.s1 < 0 → |d1 (l + 1)| ≤ K * (l + 2)) ∧
      y * wS p.s2 = d2 (l + 1) ∧ (p.s2 < 0 → |d2 (l + 1)| ≤ K * (l + 2)) := by
  obtain ⟨x, ex, fx1, bx⟩ := h.a.mid hg.q1 h1 h2
  obtain ⟨y, ey, fy, by'⟩ := h.b.mid hg.q2 h1 h2
  obtain ⟨f, hf⟩ := rd_in hg.fxl (l := l + 2) (by omega)
  rw [show (((l + 2 : ℕ) : ℤ)) = (l : ℤ) + 2 by push_cast; ring] at hf
  obtain ⟨pre', e, hp'⟩ := nextStep_ok hp hf ex ey
  exact ⟨x, y, pre', e, hp', fx1, bx, fy, by'⟩

theorem renormC_noop {cf : List ℝ} {n : ℕ} (hn : 0 < n) {r1 r2 : ℝ} {s : ℤ} {c : ℝ} (h : ¬ |r2| > 2 ^ 90) :
    renormC cf n r1 r2 s c = ok (r1, r2, s, c) := by
  obtain ⟨m, rfl⟩ : ∃ m, n = m + 1 := ⟨n - 1, by omega⟩
  unfold renormC
  rw [if_neg h]

theorem renormIf_eq {cf : List ℝ} {p : PairSt} (h1 : p.s1 ≤ 4) (h2 : p.s2 ≤ 4) : renormIf cf p = renormP cf p := by
  unfold renormIf
  split
  · rfl
  · rename_i h
    unfold anyGt at h
    rw [not_or] at h
    unfold renormP
    rw [renormC_noop (by omega) h.1, ok_bind, renormC_noop (by omega) h.2, ok_bind]

theorem PairInv.next2 (h : PairInv d1 pv1 d2 pv2 K l p) (hg : PairCtx g cth mhi lmax d1 pv1 d2 pv2) (h1 : mhi ≤ l) (h2 : l + 1 < lmax)
    (hK : pK0 lmax ≤ K) {pre : Pre} (hp : IsPre g.fx cth ((l : ℤ) + 2) pre) {x y : ℝ}
    (fx1 : x * wS p.s1 = d1 (l + 1)) (bx : p.s1 < 0 → |d1 (l + 1)| ≤ K * (l + 2))
    (fy : y * wS p.s2 = d2 (l + 1)) (by' : p.s2 < 0 → |d2 (l + 1)| ≤ K * (l + 2)) :
    ∃ z pre' p', nextStep g.fx cth pre p.r2 (x, y) ((l : ℤ) + 3) = ok (z, pre') ∧ IsPre g.fx cth ((l : ℤ) + 3) pre' ∧
      renormIf g.cf { p with l := (l : ℤ) + 2, r1 := (x, y), r2 := z } = ok p' ∧ p.s1 ≤ p'.s1 ∧ p.s2 ≤ p'.s2 ∧
      PairInv d1 pv1 d2 pv2 K (l + 2) p' := by
  obtain ⟨z1, ez1, a1, a2, a3, a4, ea, ma, ca⟩ := h.a.next2 hg.q1 h1 h2 hK hg.cf fx1 bx
  obtain ⟨z2, ez2, b1, b2, b3, b4, eb, mb, cb⟩ := h.b.next2 hg.q2 h1 h2 hK hg.cf fy by'
  obtain ⟨f, hf⟩ := rd_in hg.fxl (l := l + 3) (by omega)
  rw [show (((l + 3 : ℕ) : ℤ)) = (l : ℤ) + 3 by push_cast; ring] at hf
  obtain ⟨pre', e, hp'⟩ := nextStep_ok (reca := p.r2) (recb := (x, y)) hp hf ez1 ez2
  refine ⟨(z1, z2), pre', ⟨(l : ℤ) + 2, (a1, b1), (a2, b2), a3, b3, (a4, b4)⟩, e, hp', ?_, ma, mb, ?_⟩
  · refine (renormIf_eq (p := { p with l := (l : ℤ) + 2, r1 := (x, y), r2 := (z1, z2) }) h.a.s4 h.b.s4).trans ?_
    unfold renormP
    dsimp only
    rw [ea, ok_bind, eb, ok_bind]
  · exact ⟨by push_cast; rfl, ca, cb⟩

theorem pair1_ok (hg : PairCtx g cth mhi lmax d1 pv1 d2 pv2) : ∀ (n l : ℕ) (pre : Pre) (p : PairSt),
    mhi ≤ l → l ≤ lmax → lmax < l + 2 * n → IsPre g.fx cth ((l : ℤ) + 1) pre → PairInv d1 pv1 d2 pv2 (pK0 lmax) l p →
    p.s1 < 0 → p.s2 < 0 →
    (∀ j, mhi ≤ j → j < l → |d1 j| ≤ pK0 lmax * (j + 1) ∧ |d2 j| ≤ pK0 lmax * (j + 1)) →
    ∃ p', pair1 g cth lmax n pre p = ok p' ∧ ∃ L : ℕ, p'.l = L ∧ mhi ≤ L ∧ L ≤ lmax + 1 ∧
      (L ≤ lmax → PairInv d1 pv1 d2 pv2 (pK0 lmax) L p') ∧
      (∀ j, mhi ≤ j → j < L → |d1 j| ≤ pK0 lmax * (j + 1) ∧ |d2 j| ≤ pK0 lmax * (j + 1)) := by
  intro n
  induction n with
  | zero => intro l pre p h1 h2 h3; omega
  | succ n ih =>
    intro l pre p hml hll hn hpre hp s1 s2 hsk
    have hsk1 : ∀ j, mhi ≤ j → j < l + 1 → |d1 j| ≤ pK0 lmax * (j + 1) ∧ |d2 j| ≤ pK0 lmax * (j + 1) := by
      intro j h1 h2
      by_cases hj : j < l
      · exact hsk j h1 hj
      · have : j = l := by omega
        subst this
        exact ⟨(hp.a.small s1).1, (hp.b.small s2).1⟩
    unfold pair1
    rw [hp.l_eq]
    by_cases hl1 : l = lmax
    · rw [if_pos (by omega)]
      exact ⟨_, rfl, l + 1, by push_cast; rfl, by omega, by omega, fun h => by omega, hsk1⟩
    rw [if_neg (by omega)]
    obtain ⟨x, y, pre', e, hpre', fx1, bx, fy, by'⟩ := hp.mid hg hml (by omega) hpre
    simp only [e, ok_bind]
    have hsk2 : ∀ j, mhi ≤ j → j < l + 2 → |d1 j| ≤ pK0 lmax * (j + 1) ∧ |d2 j| ≤ pK0 lmax * (j + 1) := by
      intro j h1 h2
      by_cases hj : j < l + 1
      · exact hsk1 j h1 hj
      · have : j = l + 1 := by omega
        subst this
        have a := bx s1
        have b := by' s2
        rw [show ((l : ℝ) + 2) = ((l + 1 : ℕ) : ℝ) + 1 by push_cast; ring] at a b
        exact ⟨a, b⟩
    by_cases hl2 : l + 1 = lmax
    · rw [if_pos (by omega)]
      exact ⟨_, rfl, l + 2, by push_cast; rfl, by omega, by omega, fun h => by omega, hsk2⟩
    rw [if_neg (by omega)]
    obtain ⟨z, pre'', p', e2, hpre2, er, m1, m2, hp'⟩ := hp.next2 hg hml (by omega) le_rfl hpre' fx1 bx fy by'
    simp only [e2, ok_bind, er]
    by_cases hs : p'.s1 ≥ 0 ∨ p'.s2 ≥ 0
    · rw [if_pos hs]
      exact ⟨p', rfl, l + 2, hp'.l_eq, by omega, by omega, fun _ => hp', hsk2⟩
    · rw [if_neg hs]
      rw [not_or] at hs
      exact ih (l + 2) pre'' p' (by omega) (by omega) (by omega)
        (by rw [show (((l + 2 : ℕ) : ℤ) + 1) = (l : ℤ) + 3 by push_cast; ring]; exact hpre2) hp' (by omega) (by omega) hsk2

theorem PairInv.l2 (h : PairInv d1 pv1 d2 pv2 K l p) {K' : ℝ} (hK : K ≤ K') : PairInv d1 pv1 d2 pv2 K' l p :=
  ⟨h.l_eq, h.a.mono hK, h.b.mono hK⟩

theorem tiny_le {j lmax : ℕ} (h : j ≤ lmax) : pK0 lmax * ((j : ℝ) + 1) ≤ tiny2 lmax := by
  unfold tiny2
  have h1 := pK0_le_pK1 lmax
  have h2 := pK0_pos lmax
  have h3 : (j : ℝ) ≤ lmax := by exact_mod_cast h
  exact mul_le_mul h1 (by linarith) (by positivity) (by linarith)

theorem tiny_le1 {j lmax : ℕ} (h : j ≤ lmax) : pK1 lmax * ((j : ℝ) + 1) ≤ tiny2 lmax := by
  unfold tiny2
  have h1 := pK0_le_pK1 lmax
  have h2 := pK0_pos lmax
  have h3 : (j : ℝ) ≤ lmax := by exact_mod_cast h
  exact mul_le_mul_of_nonneg_left (by linarith) (by linarith)

theorem PairVal.bound {d : ℕ → ℝ} {T : ℝ} {j : ℕ} {x eps : ℝ} (h : PairVal d T j x) (hx : ¬ |x| > eps) : |d j| ≤ max eps T := by
  rcases h with h | ⟨_, h⟩
  · rw [← h]; exact le_max_of_le_left (not_lt.mp hx)
  · exact le_max_of_le_right h

theorem PairVal.above {d : ℕ → ℝ} {T : ℝ} {j : ℕ} {x eps : ℝ} (h : PairVal d T j x) (h0 : 0 ≤ eps) (hx : |x| > eps) : eps < |d j| := by
  rcases h with h | ⟨h, _⟩
  · rw [← h]; exact hx
  · rw [h, abs_zero] at hx; linarith

theorem pair2_ok (hg : PairCtx g cth mhi lmax d1 pv1 d2 pv2) (heps : 0 ≤ g.eps) : ∀ (n l : ℕ) (pre : Pre) (p : PairSt) (res : List V2),
    mhi ≤ l → l ≤ lmax → lmax < l + 2 * n → IsPre g.fx cth ((l : ℤ) + 1) pre → PairInv d1 pv1 d2 pv2 (pK0 lmax) l p →
    res.length = lmax + 1 →
    ∃ p' res', pair2 g cth lmax n pre p res = ok (p', res') ∧ res'.length = lmax + 1 ∧ ∃ L : ℕ, p'.l = L ∧ l ≤ L ∧ L ≤ lmax + 1 ∧
      (L ≤ lmax → PairInv d1 pv1 d2 pv2 (pK1 lmax) L p' ∧ (g.eps < |d1 L| ∨ g.eps < |d2 L|)) ∧
      (∀ j, l ≤ j → j < L → |d1 j| ≤ max g.eps (tiny2 lmax) ∧ |d2 j| ≤ max g.eps (tiny2 lmax)) := by
  intro n
  induction n with
  | zero => intro l pre p res h1 h2 h3; omega
  | succ n ih =>
    intro l pre p res hml hll hn hpre hp hlen
    unfold pair2
    rw [hp.l_eq, wr_nat _ (by omega), ok_bind]
    have g1 := hp.a.gv (T := tiny2 lmax) (tiny_le hll)
    have g2 := hp.b.gv (T := tiny2 lmax) (tiny_le hll)
    by_cases hgt : anyGt (p.r2 * p.c) g.eps
    · rw [if_pos hgt]
      refine ⟨p, _, rfl, by simpa using hlen, l, hp.l_eq, le_rfl, by omega, fun _ => ⟨hp.l2 (pK0_le_pK1 _), ?_⟩, fun j h1 h2 => by omega⟩
      exact hgt.imp (g1.above heps) (g2.above heps)
    rw [if_neg hgt]
    unfold anyGt at hgt
    rw [not_or] at hgt
    have hsk1 : ∀ j, l ≤ j → j < l + 1 → |d1 j| ≤ max g.eps (tiny2 lmax) ∧ |d2 j| ≤ max g.eps (tiny2 lmax) := by
      intro j h1 h2
      have : j = l := by omega
      subst this
      exact ⟨g1.bound hgt.1, g2.bound hgt.2⟩
    by_cases hl1 : l = lmax
    · rw [if_pos (by omega)]
      exact ⟨_, _, rfl, by simpa using hlen, l + 1, by push_cast; rfl, by omega, by omega, fun h => by omega, hsk1⟩
    rw [if_neg (by omega)]
    obtain ⟨x, y, pre', e, hpre', fx1, bx, fy, by'⟩ := hp.mid hg hml (by omega) hpre
    have hw : ∀ (xs : List V2) (v : V2), xs.length = lmax + 1 → wr xs ((l : ℤ) + 1) v = ok (xs.set (l + 1) v) := by
      intro xs v hx
      have := wr_nat (xs := xs) (i := l + 1) v (by omega)
      rwa [show (((l + 1 : ℕ) : ℤ)) = (l : ℤ) + 1 by push_cast; ring] at this
    simp only [e, ok_bind]
    rw [hw _ _ (by simpa using hlen), ok_bind]
    have e12 : pK0 lmax * ((l : ℝ) + 2) ≤ tiny2 lmax := by
      have := tiny_le (j := l + 1) (lmax := lmax) (by omega)
      push_cast at this
      rwa [show (l : ℝ) + 1 + 1 = l + 2 by ring] at this
    have g3 := hp.a.midgv fx1 bx e12
    have g4 := hp.b.midgv fy by' e12
    by_cases hgt2 : anyGt ((x, y) * p.c) g.eps
    · rw [if_pos hgt2]
      refine ⟨_, _, rfl, by simpa using hlen, l + 1, by push_cast; rfl, by omega, by omega, fun _ => ⟨⟨by push_cast; rfl, ?_, ?_⟩, ?_⟩, hsk1⟩
      · exact hp.a.swap hg.q1 hml (by omega) fx1 bx
      · exact hp.b.swap hg.q2 hml (by omega) fy by'
      · exact hgt2.imp (g3.above heps) (g4.above heps)
    rw [if_neg hgt2]
    unfold anyGt at hgt2
    rw [not_or] at hgt2
    have hsk2 : ∀ j, l ≤ j → j < l + 2 → |d1 j| ≤ max g.eps (tiny2 lmax) ∧ |d2 j| ≤ max g.eps (tiny2 lmax) := by
      intro j h1 h2
      by_cases hj : j < l + 1
      · exact hsk1 j h1 hj
      · have : j = l + 1 := by omega
        subst this
        exact ⟨g3.bound hgt2.1, g4.bound hgt2.2⟩
    by_cases hl2 : l + 1 = lmax
    · rw [if_pos (by omega)]
      exact ⟨_, _, rfl, by simpa using hlen, l + 2, by push_cast; rfl, by omega, by omega, fun h => by omega, hsk2⟩
    rw [if_neg (by omega)]
    obtain ⟨z, pre'', p', e2, hpre2, er, m1, m2, hp'⟩ := hp.next2 hg hml (by omega) le_rfl hpre' fx1 bx fy by'
    simp only [e2, ok_bind, er]
    obtain ⟨p2, res2, q1, q2, L, q3, q4, q5, q6, q7⟩ := ih (l + 2) pre'' p' ((res.set l (p.r2 * p.c)).set (l + 1) ((x, y) * p.c)) (by omega) (by omega) (by omega)
        (by rw [show (((l + 2 : ℕ) : ℤ) + 1) = (l : ℤ) + 3 by push_cast; ring]; exact hpre2) hp' (by simpa using hlen)
    refine ⟨p2, res2, q1, q2, L, q3, by omega, q5, q6, fun j h1 h2 => ?_⟩
    by_cases hj : j < l + 2
    · exact hsk2 j h1 hj
    · exact q7 j (by omega) h2

/-- The entries `j` of the result array that hold acceptable values. -/
def PairVals (d1 d2 : ℕ → ℝ) (T : ℝ) (res : List V2) (j : ℕ) : Prop :=
  ∃ v, rd res (j : ℤ) = ok v ∧ PairVal d1 T j v.1 ∧ PairVal d2 T j v.2

theorem PairVals.set_ne {T : ℝ} {res : List V2} {i j : ℕ} {v : V2} (h : i ≠ j) (hr : PairVals d1 d2 T res j) : PairVals d1 d2 T (res.set i v) j := by
  obtain ⟨w, e, a⟩ := hr
  exact ⟨w, by rw [rd_set_ne _ h]; exact e, a⟩

theorem PairVals.set_self {T : ℝ} {res : List V2} {j : ℕ} {v : V2} (h : j < res.length) (a : PairVal d1 T j v.1) (b : PairVal d2 T j v.2) :
    PairVals d1 d2 T (res.set j v) j := ⟨v, rd_set_self _ h, a, b⟩

theorem pair3_ok (hg : PairCtx g cth mhi lmax d1 pv1 d2 pv2) (heps : 0 < g.eps) : ∀ (n l : ℕ) (pre : Pre) (p : PairSt) (res : List V2),
    mhi ≤ l → l ≤ lmax → lmax < l + 2 * n → IsPre g.fx cth ((l : ℤ) + 1) pre → PairInv d1 pv1 d2 pv2 (pK1 lmax) l p →
    res.length = lmax + 1 →
    ∃ p' res', pair3 g cth lmax n pre p res = ok (p', res') ∧ res'.length = lmax + 1 ∧ ∃ L : ℕ, p'.l = L ∧ l ≤ L ∧ L ≤ lmax + 1 ∧
      (L ≤ lmax → p'.r1 * p'.c = (pv1 L, pv2 L) ∧ p'.r2 * p'.c = (d1 L, d2 L)) ∧
      (∀ j, l ≤ j → j < L → PairVals d1 d2 (tiny2 lmax) res' j) ∧ (∀ j : ℕ, j < l → rd res' (j : ℤ) = rd res (j : ℤ)) := by
  intro n
  induction n with
  | zero => intro l pre p res h1 h2 h3; omega
  | succ n ih =>
    intro l pre p res hml hll hn hpre hp hlen
    have nz : ∀ {v c : ℝ}, |v * c| ≥ g.eps → c ≠ 0 := by
      intro v c h hc
      rw [hc, mul_zero, abs_zero] at h; linarith
    unfold pair3
    rw [hp.l_eq, wr_nat _ (by omega), ok_bind]
    have g1 := hp.a.gv (T := tiny2 lmax) (tiny_le1 hll)
    have g2 := hp.b.gv (T := tiny2 lmax) (tiny_le1 hll)
    by_cases hgt : allGe (p.r2 * p.c) g.eps
    · rw [if_pos hgt]
      have x1 := hp.a.exact (nz hgt.1)
      have x2 := hp.b.exact (nz hgt.2)
      refine ⟨p, _, rfl, by simpa using hlen, l, hp.l_eq, le_rfl, by omega, fun _ => ⟨?_, ?_⟩, fun j h1 h2 => by omega,
        fun j hj => rd_set_ne _ (by omega)⟩
      · exact Prod.ext x1.1 x2.1
      · exact Prod.ext x1.2 x2.2
    rw [if_neg hgt]
    by_cases hl1 : l = lmax
    · rw [if_pos (by omega)]
      refine ⟨_, _, rfl, by simpa using hlen, l + 1, by push_cast; rfl, by omega, by omega, fun h => by omega, fun j h1 h2 => ?_,
        fun j hj => rd_set_ne _ (by omega)⟩
      have : j = l := by omega
      subst this
      exact PairVals.set_self (by omega) g1 g2
    rw [if_neg (by omega)]
    obtain ⟨x, y, pre', e, hpre', fx1, bx, fy, by'⟩ := hp.mid hg hml (by omega) hpre
    have hw : ∀ (xs : List V2) (v : V2), xs.length = lmax + 1 → wr xs ((l : ℤ) + 1) v = ok (xs.set (l + 1) v) := by
      intro xs v hx
      have := wr_nat (xs := xs) (i := l + 1) v (by omega)
      rwa [show (((l + 1 : ℕ) : ℤ)) = (l : ℤ) + 1 by push_cast; ring] at this
    simp only [e, ok_bind]
    rw [hw _ _ (by simpa using hlen), ok_bind]
    have e12 : pK1 lmax * ((l : ℝ) + 2) ≤ tiny2 lmax := by
      have := tiny_le1 (j := l + 1) (lmax := lmax) (by omega)
      push_cast at this
      rwa [show (l : ℝ) + 1 + 1 = l + 2 by ring] at this
    have g3 := hp.a.midgv fx1 bx e12
    have g4 := hp.b.midgv fy by' e12
    by_cases hgt2 : allGe ((x, y) * p.c) g.eps
    · rw [if_pos hgt2]
      have x1 := (hp.a.adv hg.q1 hml fx1 (nz hgt2.1)).exact (nz hgt2.1)
      have x2 := (hp.b.adv hg.q2 hml fy (nz hgt2.2)).exact (nz hgt2.2)
      refine ⟨_, _, rfl, by simpa using hlen, l + 1, by push_cast; rfl, by omega, by omega, fun _ => ⟨?_, ?_⟩, fun j h1 h2 => ?_,
        fun j hj => by rw [rd_set_ne _ (by omega), rd_set_ne _ (by omega)]⟩
      · exact Prod.ext x1.1 x2.1
      · exact Prod.ext x1.2 x2.2
      · have : j = l := by omega
        subst this
        exact PairVals.set_ne (by omega) (PairVals.set_self (by omega) g1 g2)
    rw [if_neg hgt2]
    have hin : ∀ j, l ≤ j → j < l + 2 → PairVals d1 d2 (tiny2 lmax) ((res.set l (p.r2 * p.c)).set (l + 1) ((x, y) * p.c)) j := by
      intro j h1 h2
      by_cases hj : j = l
      · subst hj
        exact PairVals.set_ne (by omega) (PairVals.set_self (by omega) g1 g2)
      · have : j = l + 1 := by omega
        subst this
        exact PairVals.set_self (by simp; omega) g3 g4
    by_cases hl2 : l + 1 = lmax
    · rw [if_pos (by omega)]
      exact ⟨_, _, rfl, by simpa using hlen, l + 2, by push_cast; rfl, by omega, by omega, fun h => by omega, hin,
        fun j hj => by rw [rd_set_ne _ (by omega), rd_set_ne _ (by omega)]⟩
    rw [if_neg (by omega)]
    obtain ⟨z, pre'', p', e2, hpre2, er, m1, m2, hp'⟩ := hp.next2 hg hml (by omega) (pK0_le_pK1 _) hpre' fx1 bx fy by'
    simp only [e2, ok_bind, er]
    obtain ⟨p2, res2, q1, q2, L, q3, q4, q5, q6, q7, q8⟩ := ih (l + 2) pre'' p' ((res.set l (p.r2 * p.c)).set (l + 1) ((x, y) * p.c)) (by omega) (by omega) (by omega)
        (by rw [show (((l + 2 : ℕ) : ℤ) + 1) = (l : ℤ) + 3 by push_cast; ring]; exact hpre2) hp' (by simpa using hlen)
    refine ⟨p2, res2, q1, q2, L, q3, by omega, q5, q6, fun j h1 h2 => ?_, fun j hj => ?_⟩
    · by_cases hj : j < l + 2
      · obtain ⟨v, e, a⟩ := hin j h1 hj
        exact ⟨v, by rw [q8 j hj]; exact e, a⟩
      · exact q7 j (by omega) h2
    · rw [q8 j (by omega), rd_set_ne _ (by omega), rd_set_ne _ (by omega)]

theorem pair4_ok (hg : PairCtx g cth mhi lmax d1 pv1 d2 pv2) : ∀ (n l : ℕ) (pre : Pre) (res : List V2),
    mhi ≤ l → l ≤ lmax → lmax < l + 2 * n → IsPre g.fx cth ((l : ℤ) + 1) pre → res.length = lmax + 1 →
    ∃ res', pair4 g.fx cth lmax n l pre (pv1 l, pv2 l) (d1 l, d2 l) res = ok res' ∧ res'.length = lmax + 1 ∧
      (∀ j : ℕ, l ≤ j → j ≤ lmax → rd res' (j : ℤ) = ok (d1 j, d2 j)) ∧ (∀ j : ℕ, j < l → rd res' (j : ℤ) = rd res (j : ℤ)) := by
  intro n
  induction n with
  | zero => intro l pre res h1 h2 h3; omega
  | succ n ih =>
    intro l pre res hml hll hn hpre hlen
    have hw : ∀ (xs : List V2) (v : V2), xs.length = lmax + 1 → l + 1 ≤ lmax → wr xs ((l : ℤ) + 1) v = ok (xs.set (l + 1) v) := by
      intro xs v hx hl
      have := wr_nat (xs := xs) (i := l + 1) v (by omega)
      rwa [show (((l + 1 : ℕ) : ℤ)) = (l : ℤ) + 1 by push_cast; ring] at this
    have hstep : l + 1 ≤ lmax → ∃ pre', nextStep g.fx cth pre (pv1 l, pv2 l) (d1 l, d2 l) ((l : ℤ) + 2) =
        ok ((d1 (l + 1), d2 (l + 1)), pre') ∧ IsPre g.fx cth ((l : ℤ) + 2) pre' := by
      intro hl
      obtain ⟨f, hf⟩ := rd_in hg.fxl (l := l + 2) (by omega)
      rw [show (((l + 2 : ℕ) : ℤ)) = (l : ℤ) + 2 by push_cast; ring] at hf
      exact nextStep_ok hpre hf (hg.q1.stepN hml (by omega)) (hg.q2.stepN hml (by omega))
    unfold pair4
    by_cases hl : (l : ℤ) < (lmax : ℤ) - 1
    · rw [if_pos hl, wr_nat _ (by omega), ok_bind]
      obtain ⟨pre', e, hpre'⟩ := hstep (by omega)
      rw [e, ok_bind, hw _ _ (by simpa using hlen) (by omega), ok_bind]
      obtain ⟨f, hf⟩ := rd_in hg.fxl (l := l + 3) (by omega)
      rw [show (((l + 3 : ℕ) : ℤ)) = (l : ℤ) + 3 by push_cast; ring] at hf
      obtain ⟨pre'', e2, hpre2⟩ := nextStep_ok (reca := (d1 l, d2 l)) (recb := (d1 (l + 1), d2 (l + 1))) hpre' hf
        (hg.q1.stepN2 hml (by omega)) (hg.q2.stepN2 hml (by omega))
      dsimp only
      rw [e2, ok_bind]
      obtain ⟨res', q1, q2, q3, q4⟩ := ih (l + 2) pre'' ((res.set l (d1 l, d2 l)).set (l + 1) (d1 (l + 1), d2 (l + 1)))
        (by omega) (by omega) (by omega)
        (by rw [show (((l + 2 : ℕ) : ℤ) + 1) = (l : ℤ) + 3 by push_cast; ring]; exact hpre2) (by simpa using hlen)
      rw [hg.q1.next (l + 1) (by omega), hg.q2.next (l + 1) (by omega), show (((l + 2 : ℕ) : ℤ)) = (l : ℤ) + 2 by push_cast; ring] at q1
      refine ⟨res', q1, q2, fun j h1 h2 => ?_, fun j hj => ?_⟩
      · by_cases hj : l + 2 ≤ j
        · exact q3 j hj h2
        · rw [q4 j (by omega)]
          by_cases hj' : j = l
          · subst hj'
            rw [rd_set_ne _ (by omega)]
            exact rd_set_self _ (by omega)
          · rw [show j = l + 1 by omega]
            exact rd_set_self _ (by simp; omega)
      · rw [q4 j (by omega), rd_set_ne _ (by omega), rd_set_ne _ (by omega)]
    · rw [if_neg hl, wr_nat _ (by omega), ok_bind]
      by_cases hl1 : l = lmax
      · rw [if_neg (by omega)]
        refine ⟨_, rfl, by simpa using hlen, fun j h1 h2 => ?_, fun j hj => rd_set_ne _ (by omega)⟩
        rw [show j = l by omega]
        exact rd_set_self _ (by omega)
      · rw [if_pos (by omega)]
        obtain ⟨pre', e, hpre'⟩ := hstep (by omega)
        rw [e, ok_bind, hw _ _ (by simpa using hlen) (by omega)]
        refine ⟨_, rfl, by simpa using hlen, fun j h1 h2 => ?_, fun j hj => by rw [rd_set_ne _ (by omega), rd_set_ne _ (by omega)]⟩
        by_cases hj' : j = l
        · subst hj'
          rw [rd_set_ne _ (by omega)]
          exact rd_set_self _ (by omega)
        · rw [show j = l + 1 by omega]
          exact rd_set_self _ (by simp; omega)

end

end Verif.Num
