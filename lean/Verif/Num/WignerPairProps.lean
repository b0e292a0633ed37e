import Verif.Num.WignerPairProof

/-!
# The pair evaluation of the Wigner generator: properties (C75)
-/

namespace Verif.Num
open Verif Res

/-- The starting value of one component. -/
theorem pairStart_ok {g : Gen} {lmax : ℕ} {ths : List ℝ} {eps : ℝ} (hT : Tables g lmax ths eps) {m1 m2 : ℤ}
    (hP : Prepared g m1 m2) {M : ℕ} (hM : max |m1| |m2| = M) (hMl : M ≤ g.lmax) {n : ℕ} (hn : n < ths.length) :
    ∃ s r, pairStart g n = ok (s, r) ∧ s ≤ 4 ∧ |r| ≤ 1 ∧ r ≠ 0 ∧ r * wS s = wignerD M m1 m2 (genAngle ths[n]) ∧
      (2 ^ (-450 : ℤ) < |wignerD M m1 m2 (genAngle ths[n])| → 0 ≤ s) ∧
      (|wignerD M m1 m2 (genAngle ths[n])| ≤ 2 ^ (-450 : ℤ) → s < 0) := by
  set t := ths[n] with ht
  set θ := genAngle t with hθ
  have hseq := seq_of_prepared hP hM hMl (θ := θ) (cth := Real.cos (adjTheta t).2) (by rw [hθ, cos_genAngle])
  obtain ⟨hc, hs⟩ := adjTheta_trig t
  obtain ⟨pc, ps⟩ := prepPows_nonneg hM
  have hpows := hP.pows
  rw [hM] at hpows
  have e1 : g.cosPow = (prepPows m1 m2 M).1 := congrArg Prod.fst hpows
  have e2 : g.sinPow = (prepPows m1 m2 M).2.1 := congrArg (fun p => p.2.1) hpows
  have e3 : g.preMinus = (prepPows m1 m2 M).2.2 := congrArg (fun p => p.2.2) hpows
  have hstart := startSigned hM t
  rw [← hθ] at hstart
  have hchoose : (0:ℝ) < √((2 * M).choose (M + min |m1| |m2|).toNat : ℝ) := by
    apply Real.sqrt_pos.mpr
    have hminM : min |m1| |m2| ≤ M := by rw [← hM]; exact min_le_max
    have := Nat.choose_pos (n := 2 * M) (k := (M + min |m1| |m2|).toNat) (by omega)
    exact_mod_cast this
  set v := √((2 * M).choose (M + min |m1| |m2|).toNat : ℝ) *
      (Real.cos (1 / 2 * (adjTheta t).2) ^ (prepPows m1 m2 M).1.toNat *
        Real.sin (1 / 2 * (adjTheta t).2) ^ (prepPows m1 m2 M).2.1.toNat) with hv
  have hv0 : 0 < v := by rw [hv]; positivity
  set sg : Bool := (prepPows m1 m2 M).2.2 ^^ ((adjTheta t).1 && decide ((|m1| + |m2|) % 2 = 1)) with hsg
  have hsg1 : |(if sg then -1 else 1 : ℝ)| = 1 := by split <;> simp
  have hvd : |wignerD M m1 m2 θ| = v := by rw [hstart, abs_mul, abs_of_pos hv0, hsg1, one_mul]
  have hv1 : v ≤ 1 := by
    have h := hseq.bound M (le_refl _) hMl
    rwa [hvd] at h
  have hlog : g.prefactor + Real.log (Real.cos (1 / 2 * (adjTheta t).2)) * g.cosPow
      + Real.log (Real.sin (1 / 2 * (adjTheta t).2)) * g.sinPow = Real.log v := by
    rw [prefactor_eq hP hM, hv, Real.log_mul hchoose.ne' (by positivity), Real.log_mul (by positivity) (by positivity),
      Real.log_pow, Real.log_pow, e1, e2, toNat_real pc, toNat_real ps]
    ring
  obtain ⟨q1, q2, q3, q4⟩ := split_scale hv0 hv1
  have r2 : rd g.lc05 (n : ℤ) = ok (Real.log (Real.cos (1 / 2 * (adjTheta t).2))) := by
    rw [hT.lc05, rd_nat (by simpa using hn)]; simp [ht]
  have r3 : rd g.ls05 (n : ℤ) = ok (Real.log (Real.sin (1 / 2 * (adjTheta t).2))) := by
    rw [hT.ls05, rd_nat (by simpa using hn)]; simp [ht]
  have r4 : rd g.thetaflip (n : ℤ) = ok (adjTheta t).1 := by
    rw [hT.thetaflip, rd_nat (by simpa using hn)]; simp [ht]
  set scale : ℤ := Tod.truncR (Real.log v * (1 / Real.log 2) / 90) - (-4) with hscale
  set r := Real.exp (Real.log 2 * (Real.log v * (1 / Real.log 2) - (scale + (-4) : ℤ) * 90)) with hr
  have hw450 : wS (-1) = (2 : ℝ) ^ (-450 : ℤ) := by unfold wS; norm_num
  refine ⟨scale, if sg then -r else r, ?_, q1, ?_, ?_, ?_, ?_, ?_⟩
  · unfold pairStart
    rw [r2, r3, r4]
    simp only [ok_bind]
    rw [hlog, e3, hP.am1_eq, hP.am2_eq, ← hsg]
  · have : |(if sg then -r else r)| = r := by
      split
      · rw [abs_neg, abs_of_pos q2]
      · rw [abs_of_pos q2]
    rw [this]; exact q3
  · split
    · exact neg_ne_zero.mpr q2.ne'
    · exact q2.ne'
  · rw [hstart, ← q4]; split <;> ring
  · intro h
    rw [hvd, ← q4, ← hw450] at h
    by_contra hneg
    have h1 : wS scale ≤ wS (-1) := wS_mono (by omega)
    have h2 := wS_pos scale
    nlinarith
  · intro h
    rw [hvd, ← hw450] at h
    by_contra hneg
    -- the quotient of the logarithm by 90 is at most -5
    have hl2 : 0 < Real.log 2 := Real.log_pos (by norm_num)
    have h1 : Real.log v ≤ Real.log (wS (-1)) := Real.log_le_log hv0 h
    have h2 : Real.log (wS (-1)) = -450 * Real.log 2 := by
      rw [hw450, Real.log_zpow]; norm_num
    have h3 : Real.log v * (1 / Real.log 2) / 90 ≤ -5 := by
      rw [div_le_iff₀ (by norm_num), mul_one_div, div_le_iff₀ hl2]
      linarith
    have h4 : Tod.truncR (Real.log v * (1 / Real.log 2) / 90) ≤ -5 := by
      unfold Tod.truncR
      rw [if_neg (by linarith)]
      exact Int.ceil_le.mpr (by push_cast; exact h3)
    omega

theorem CompInv.start {g : Gen} {cth : ℝ} {M lmax : ℕ} {d pv : ℕ → ℝ} (hq : Seq g.fx cth M lmax d pv) {s : ℤ} {r : ℝ} (h4 : s ≤ 4)
    (h1 : |r| ≤ 1) (h : r * wS s = d M) : CompInv d pv (pK0 lmax) M 0 r s (if s < 0 then 0 else wS s) := by
  refine ⟨h4, by rw [zero_mul, hq.start], h, rfl, fun hs => ?_⟩
  have hcur : |d M| ≤ b360 := by
    rw [← h, abs_mul, abs_of_pos (wS_pos s)]
    have q1 : wS s ≤ wS 0 := wS_mono (by omega)
    have q2 : wS 0 = b360 := by rw [b360]; unfold wS; norm_num
    rw [← q2]
    nlinarith [abs_nonneg r, wS_pos s]
  rw [hq.start, abs_zero, add_zero]
  have hl : (M : ℝ) ≤ lmax := by exact_mod_cast hq.le
  have hM0 : (0 : ℝ) ≤ M := Nat.cast_nonneg _
  have hb := b360_pos
  unfold pK0
  have h2 : b360 ≤ 2 * (lmax + 1) * b360 := by nlinarith
  constructor
  · nlinarith
  · have : 2 * ((M : ℝ) + 1) * |d M| ≤ 2 * (lmax + 1) * b360 := mul_le_mul (by linarith) hcur (abs_nonneg _) (by positivity)
    nlinarith

/-- `calc (nth1, nth2, …)` on a prepared generator. -/
theorem pcalc_ok {g : Gen} {lmax : ℕ} {ths : List ℝ} {eps : ℝ} (hT : Tables g lmax ths eps) (heps : 0 < eps) {m1 m2 : ℤ}
    (hP : Prepared g m1 m2) (h1 : |m1| ≤ lmax) (h2 : |m2| ≤ lmax) {n1 n2 : ℕ} (hn1 : n1 < ths.length) (hn2 : n2 < ths.length)
    {res : List V2} (hres : res.length = lmax + 1) :
    ∃ (firstl : ℕ) (res' : List V2), pcalc g n1 n2 res = ok ((firstl : ℤ), res') ∧ res'.length = lmax + 1 ∧
      max |m1| |m2| ≤ firstl ∧ firstl ≤ lmax + 1 ∧
      (∀ l : ℕ, firstl ≤ l → l ≤ lmax → PairVals (fun l => wignerD l m1 m2 (genAngle ths[n1])) (fun l => wignerD l m1 m2 (genAngle ths[n2]))
        (tiny2 lmax) res' l) ∧
      (∀ l : ℕ, max |m1| |m2| ≤ l → l < firstl → l ≤ lmax →
        |wignerD l m1 m2 (genAngle ths[n1])| ≤ max eps (tiny2 lmax) ∧ |wignerD l m1 m2 (genAngle ths[n2])| ≤ max eps (tiny2 lmax)) ∧
      (firstl ≤ lmax → eps < |wignerD firstl m1 m2 (genAngle ths[n1])| ∨ eps < |wignerD firstl m1 m2 (genAngle ths[n2])|) := by
  obtain ⟨M, hM⟩ : ∃ M : ℕ, max |m1| |m2| = M := ⟨(max |m1| |m2|).toNat, by
    rw [Int.toNat_of_nonneg (le_trans (abs_nonneg m1) (le_max_left _ _))]⟩
  have hlm := hT.lmax_eq
  have hMl : M ≤ g.lmax := by rw [hlm]; have := max_le h1 h2; omega
  obtain ⟨s1, r1, es1, s14, r11, r1n, f1, _, _⟩ := pairStart_ok hT hP hM hMl hn1
  obtain ⟨s2, r2, es2, s24, r21, r2n, f2, _, _⟩ := pairStart_ok hT hP hM hMl hn2
  set d1 : ℕ → ℝ := fun l => wignerD l m1 m2 (genAngle ths[n1]) with hd1
  set d2 : ℕ → ℝ := fun l => wignerD l m1 m2 (genAngle ths[n2]) with hd2
  have q1 := seq_of_prepared hP hM hMl (θ := genAngle ths[n1]) (cth := Real.cos (adjTheta ths[n1]).2) (by rw [cos_genAngle])
  have q2 := seq_of_prepared hP hM hMl (θ := genAngle ths[n2]) (cth := Real.cos (adjTheta ths[n2]).2) (by rw [cos_genAngle])
  set pv1 : ℕ → ℝ := fun l => prevD m1 m2 l (genAngle ths[n1]) with hpv1
  set pv2 : ℕ → ℝ := fun l => prevD m1 m2 l (genAngle ths[n2]) with hpv2
  set cth : V2 := (Real.cos (adjTheta ths[n1]).2, Real.cos (adjTheta ths[n2]).2) with hcth
  rw [hlm] at q1 q2
  have hg : PairCtx g cth M lmax d1 pv1 d2 pv2 := ⟨q1, q2, hT.fxlen, hT.cf⟩
  have c1 : rd g.costh (n1 : ℤ) = ok (Real.cos (adjTheta ths[n1]).2) := by
    rw [hT.costh, rd_nat (by simpa using hn1)]; simp
  have c2 : rd g.costh (n2 : ℤ) = ok (Real.cos (adjTheta ths[n2]).2) := by
    rw [hT.costh, rd_nat (by simpa using hn2)]; simp
  have hmhi : g.mhi = (M : ℤ) := by rw [hP.mhi_eq, hM]
  obtain ⟨pre, ep, hpre⟩ := getPre_ok hT.fxlen cth (l := M) (by omega)
  have hp0 : PairInv d1 pv1 d2 pv2 (pK0 lmax) M ⟨(M : ℤ), (0, 0), (r1, r2), s1, s2, (if s1 < 0 then 0 else wS s1, if s2 < 0 then 0 else wS s2)⟩ :=
    ⟨rfl, CompInv.start q1 s14 r11 f1, CompInv.start q2 s24 r21 f2⟩
  -- the first block
  obtain ⟨p1, e1, L1, l1, hML1, hL1l, hp1, hsk1⟩ : ∃ p1, pairLow g cth pre ⟨(M : ℤ), (0, 0), (r1, r2), s1, s2,
      (if s1 < 0 then 0 else wS s1, if s2 < 0 then 0 else wS s2)⟩ = ok p1 ∧ ∃ L : ℕ, p1.l = L ∧ M ≤ L ∧ L ≤ lmax + 1 ∧
      (L ≤ lmax → PairInv d1 pv1 d2 pv2 (pK0 lmax) L p1) ∧
      (∀ j, M ≤ j → j < L → |d1 j| ≤ pK0 lmax * (j + 1) ∧ |d2 j| ≤ pK0 lmax * (j + 1)) := by
    unfold pairLow
    by_cases hs : s1 < 0 ∧ s2 < 0
    · rw [if_pos hs, hlm]
      exact pair1_ok hg (lmax + 2) M pre _ le_rfl (by omega) (by omega) hpre hp0 hs.1 hs.2 (fun j a b => by omega)
    · rw [if_neg hs]
      exact ⟨_, rfl, M, rfl, le_rfl, by omega, fun _ => hp0, fun j a b => by omega⟩
  -- the second block
  obtain ⟨p2, res2, e2, len2, L2, l2, hL12, hL2l, hp2, hsk2⟩ : ∃ p2 res2, pairMid g cth p1 res = ok (p2, res2) ∧
      res2.length = lmax + 1 ∧ ∃ L : ℕ, p2.l = L ∧ L1 ≤ L ∧ L ≤ lmax + 1 ∧
      (L ≤ lmax → PairInv d1 pv1 d2 pv2 (pK1 lmax) L p2 ∧ (g.eps < |d1 L| ∨ g.eps < |d2 L|)) ∧
      (∀ j, L1 ≤ j → j < L → |d1 j| ≤ max g.eps (tiny2 lmax) ∧ |d2 j| ≤ max g.eps (tiny2 lmax)) := by
    unfold pairMid
    rw [l1, hlm]
    by_cases hl : L1 ≤ lmax
    · rw [if_pos (by omega)]
      obtain ⟨pre1, ep1, hpre1⟩ := getPre_ok hT.fxlen cth (l := L1) hl
      rw [ep1, ok_bind]
      exact pair2_ok hg (by rw [hT.eps_eq]; exact heps.le) (lmax + 2) L1 pre1 p1 res hML1 hl (by omega) hpre1 (hp1 hl) hres
    · rw [if_neg (by omega)]
      exact ⟨_, _, rfl, hres, L1, l1, le_rfl, hL1l, fun h => absurd h hl, fun j a b => by omega⟩
  rw [hT.eps_eq] at hp2 hsk2
  rw [hM]
  have hskip : ∀ l : ℕ, (M : ℤ) ≤ l → l < L2 → l ≤ lmax → |d1 l| ≤ max eps (tiny2 lmax) ∧ |d2 l| ≤ max eps (tiny2 lmax) := by
    intro l a b c
    by_cases hl : l < L1
    · obtain ⟨x, y⟩ := hsk1 l (by omega) hl
      exact ⟨le_max_of_le_right (x.trans (tiny_le c)), le_max_of_le_right (y.trans (tiny_le c))⟩
    · exact hsk2 l (by omega) b
  have hbegin : pcalc g n1 n2 res = (do
      let firstl := p2.l
      if p2.l > (g.lmax : ℤ) then ok (firstl, res2) else do
      let pre ← getPre g.fx cth (p2.l + 1)
      let (p, res) ← pair3 g cth g.lmax (g.lmax + 2) pre p2 res2
      if p.l > (g.lmax : ℤ) then ok (firstl, res) else do
      let pre ← getPre g.fx cth (p.l + 1)
      let res ← pair4 g.fx cth g.lmax (g.lmax + 2) p.l pre (p.r1 * p.c) (p.r2 * p.c) res
      ok (firstl, res)) := by
    unfold pcalc
    dsimp only
    rw [c1, ok_bind, c2, ok_bind, es1, ok_bind, es2, ok_bind, rd_cf hT.cf s14, ok_bind, rd_cf hT.cf s24, ok_bind, hmhi, ← hcth, ep, ok_bind]
    rw [e1, ok_bind, e2, ok_bind]
  rw [hbegin, l2]
  dsimp only
  by_cases hf : L2 ≤ lmax
  · rw [if_neg (by omega)]
    obtain ⟨pre2, ep2, hpre2⟩ := getPre_ok hT.fxlen cth (l := L2) hf
    rw [ep2, ok_bind, hlm]
    obtain ⟨p3, res3, e3, len3, L3, l3, hL23, hL3l, hp3, hr3, hb3⟩ := pair3_ok hg (by rw [hT.eps_eq]; exact heps) (lmax + 2) L2 pre2 p2 res2
      (by omega) hf (by omega) hpre2 (hp2 hf).1 len2
    rw [e3, ok_bind]
    dsimp only
    rw [l3]
    by_cases hf3 : L3 ≤ lmax
    · rw [if_neg (by omega)]
      obtain ⟨pre3, ep3, hpre3⟩ := getPre_ok hT.fxlen cth (l := L3) hf3
      obtain ⟨x1, x2⟩ := hp3 hf3
      rw [ep3, ok_bind, x1, x2]
      obtain ⟨res4, e4, len4, hr4, hb4⟩ := pair4_ok hg (lmax + 2) L3 pre3 res3 (by omega) hf3 (by omega) hpre3 len3
      rw [e4, ok_bind]
      refine ⟨L2, res4, rfl, len4, by omega, hL2l, fun l a b => ?_, hskip, fun _ => (hp2 hf).2⟩
      by_cases hl : l < L3
      · obtain ⟨v, e, w⟩ := hr3 l a hl
        exact ⟨v, by rw [hb4 l hl]; exact e, w⟩
      · exact ⟨_, hr4 l (by omega) b, Or.inl rfl, Or.inl rfl⟩
    · rw [if_pos (by omega)]
      exact ⟨L2, res3, rfl, len3, by omega, hL2l, fun l a b => hr3 l a (by omega), hskip, fun _ => (hp2 hf).2⟩
  · rw [if_pos (by omega)]
    exact ⟨L2, res2, rfl, len2, by omega, hL2l, fun l a b => by omega, hskip, fun h => absurd h hf⟩

theorem tiny2_le {lmax : ℕ} (hL : lmax < 46341) : tiny2 lmax ≤ 1 / 10 ^ 90 := by
  have h0 : (0 : ℝ) ≤ lmax := Nat.cast_nonneg _
  have hl : (lmax : ℝ) + 1 ≤ 46341 := by exact_mod_cast hL
  have hb := b360_pos
  have hbv : b360 = 1 / (2 ^ (180 : ℕ) * 2 ^ (180 : ℕ)) := by
    rw [b360, zpow_neg, show (2 : ℝ) ^ (360 : ℤ) = 2 ^ (180 : ℕ) * 2 ^ (180 : ℕ) by rw [← pow_add]; rfl, one_div]
  have h1 : (2 * (lmax : ℝ) + 3) * (2 * (lmax + 1)) * (lmax + 1) ≤ 92683 * 92682 * 46341 := by
    have : 2 * (lmax : ℝ) + 3 ≤ 92683 := by linarith
    have : 2 * ((lmax : ℝ) + 1) ≤ 92682 := by linarith
    gcongr
  calc tiny2 lmax = (2 * (lmax : ℝ) + 3) * (2 * (lmax + 1)) * (lmax + 1) * b360 := by unfold tiny2 pK1 pK0; ring
    _ ≤ 92683 * 92682 * 46341 * b360 := mul_le_mul_of_nonneg_right h1 hb.le
    _ ≤ 1 / 10 ^ 90 := by
      rw [hbv, mul_one_div, div_le_div_iff₀ (by positivity) (by positivity)]
      norm_num

/-! ## the properties -/

/-- A generator prepared for the orders `m1`, `m2` after any history of calls on it. -/
noncomputable def genAfter (ovf : Res ℤ) (lmax : ℕ) (ths : List ℝ) (eps : ℝ) (calls : List Call) (m1 m2 : ℤ) : Res Gen := do
  let g ← mkGen lmax ths eps
  let g ← foldRes (stepCall ovf) g calls
  prepare ovf g m1 m2

/-- The first call of a history on a generator has to be a `prepare`. -/
def HistOK (lmax nth : ℕ) : List Call → Prop
  | [] => True
  | .prepare a b :: cs => |a| ≤ lmax ∧ |b| ≤ lmax ∧ ∀ c ∈ cs, c.OK lmax nth
  | .calcAt _ :: _ => False

theorem genAfter_ok {ovf : Res ℤ} {v : ℤ} (hovf : ovf = ok v) {lmax : ℕ} (h0 : 0 < lmax) (hL : lmax < 46341) {ths : List ℝ} {eps : ℝ}
    {calls : List Call} (hc : HistOK lmax ths.length calls) {m1 m2 : ℤ} (h1 : |m1| ≤ lmax) (h2 : |m2| ≤ lmax) :
    ∃ g, genAfter ovf lmax ths eps calls m1 m2 = ok g ∧ Tables g lmax ths eps ∧ Prepared g m1 m2 := by
  obtain ⟨g, e, hT, hf⟩ := tables_mkGen (ths := ths) (eps := eps) h0
  unfold genAfter
  rw [e, ok_bind]
  cases calls with
  | nil =>
    obtain ⟨g', e', hT', hP'⟩ := prepare_ok hovf hL hT (Or.inl hf) h1 h2
    exact ⟨g', by simpa [foldRes] using e', hT', hP'⟩
  | cons c cs =>
    cases c with
    | calcAt n => exact hc.elim
    | prepare a b =>
      obtain ⟨ga, ea, hTa, hPa⟩ := prepare_ok hovf hL hT (Or.inl hf) hc.1 hc.2.1
      obtain ⟨gb, eb, hTb, b1, b2, k1, k2, hPb⟩ := history_inv hovf hL cs ga hTa ⟨a, b, hc.1, hc.2.1, hPa⟩ hc.2.2
      obtain ⟨gc, ec, hTc, hPc⟩ := prepare_ok hovf hL hTb (Or.inr ⟨b1, b2, k1, k2, hPb⟩) h1 h2
      refine ⟨gc, ?_, hTc, hPc⟩
      rw [foldRes_cons]
      simp only [stepCall, ea, ok_bind, Res.bind, eb, ec]

/-- A value handed out for the exact value `d`: the value itself, or zero for a value below `1e-90`. -/
def Delivered (d x : ℝ) : Prop := x = d ∨ (x = 0 ∧ |d| ≤ 1 / 10 ^ 90)

/-- C75: the evaluation for two angles in one call, on a generator with any history and any positive threshold: all
accesses are in bounds, and from the reported first degree on every entry holds the two Wigner d-functions of the two
(pole-adjusted) angles, where a component below `1e-90` may be delivered as zero; below the first degree both functions are
at most the threshold (or `1e-90`), and at the first degree one of them is above the threshold. -/
theorem C75_pair {ovf : Res ℤ} {v : ℤ} (hovf : ovf = ok v) {lmax : ℕ} (h0 : 0 < lmax) (hL : lmax < 46341)
    {ths : List ℝ} {eps : ℝ} (heps : 0 < eps) {calls : List Call} (hc : HistOK lmax ths.length calls)
    {m1 m2 : ℤ} (h1 : |m1| ≤ lmax) (h2 : |m2| ≤ lmax) {n1 n2 : ℕ} (hn1 : n1 < ths.length) (hn2 : n2 < ths.length)
    {res : List V2} (hres : res.length = lmax + 1) :
    ∃ (firstl : ℕ) (res' : List V2),
      (do let g ← genAfter ovf lmax ths eps calls m1 m2
          pcalc g n1 n2 res) = ok ((firstl : ℤ), res') ∧ res'.length = lmax + 1 ∧
      max |m1| |m2| ≤ firstl ∧ firstl ≤ lmax + 1 ∧
      (∀ l : ℕ, firstl ≤ l → l ≤ lmax → ∃ a b, res'[l]? = some (a, b) ∧
        Delivered (wignerD l m1 m2 (genAngle ths[n1])) a ∧ Delivered (wignerD l m1 m2 (genAngle ths[n2])) b) ∧
      (∀ l : ℕ, max |m1| |m2| ≤ l → l < firstl → l ≤ lmax →
        |wignerD l m1 m2 (genAngle ths[n1])| ≤ max eps (1 / 10 ^ 90) ∧ |wignerD l m1 m2 (genAngle ths[n2])| ≤ max eps (1 / 10 ^ 90)) ∧
      (firstl ≤ lmax → eps < |wignerD firstl m1 m2 (genAngle ths[n1])| ∨ eps < |wignerD firstl m1 m2 (genAngle ths[n2])|) := by
  obtain ⟨g, e, hT, hP⟩ := genAfter_ok hovf h0 hL (eps := eps) hc h1 h2
  obtain ⟨firstl, res', a, b, c, d, f, k, m⟩ := pcalc_ok hT heps hP h1 h2 hn1 hn2 hres
  have ht := tiny2_le hL
  refine ⟨firstl, res', by rw [e, ok_bind]; exact a, b, c, d, fun l ha hb => ?_, fun l x y z => ?_, m⟩
  · obtain ⟨w, ew, ga, gb⟩ := f l ha hb
    rw [rd_nat (by omega)] at ew
    injection ew with ew
    refine ⟨w.1, w.2, by rw [List.getElem?_eq_getElem (by omega), ew], ?_, ?_⟩
    · exact ga.imp id (fun q => ⟨q.1, q.2.trans ht⟩)
    · exact gb.imp id (fun q => ⟨q.1, q.2.trans ht⟩)
  · obtain ⟨p, q⟩ := k l x y z
    exact ⟨p.trans (max_le_max le_rfl ht), q.trans (max_le_max le_rfl ht)⟩

/-- What a caller uses for degree `l`: the entry of the result array from the first degree on, zero below it. -/
def reported {α : Type} (zero : α) (firstl : ℤ) (res : List α) (l : ℕ) : α := if (l : ℤ) < firstl then zero else res.getD l zero

/-- C75: evaluating two angles in one call and evaluating each of them alone give, for every degree, values that differ
by at most the threshold (or `1e-90`); in particular every element above the threshold is delivered identically. -/
theorem C75_agrees {ovf : Res ℤ} {v : ℤ} (hovf : ovf = ok v) {lmax : ℕ} (h0 : 0 < lmax) (hL : lmax < 46341)
    {ths : List ℝ} {eps : ℝ} (heps : 0 < eps) {calls : List Call} (hc : HistOK lmax ths.length calls)
    {m1 m2 : ℤ} (h1 : |m1| ≤ lmax) (h2 : |m2| ≤ lmax) {n1 n2 : ℕ} (hn1 : n1 < ths.length) (hn2 : n2 < ths.length)
    {res : List V2} (hres : res.length = lmax + 1) {ra rb : List ℝ} (hra : ra.length = lmax + 1) (hrb : rb.length = lmax + 1) :
    ∃ (f fa fb : ℕ) (r : List V2) (ra' rb' : List ℝ),
      (do let g ← genAfter ovf lmax ths eps calls m1 m2
          pcalc g n1 n2 res) = ok ((f : ℤ), r) ∧
      (do let g ← genAfter ovf lmax ths eps calls m1 m2
          wcalc g n1 ra) = ok ((fa : ℤ), ra') ∧
      (do let g ← genAfter ovf lmax ths eps calls m1 m2
          wcalc g n2 rb) = ok ((fb : ℤ), rb') ∧
      ∀ l : ℕ, max |m1| |m2| ≤ l → l ≤ lmax →
        |(reported (0, 0) f r l).1 - reported 0 fa ra' l| ≤ max eps (1 / 10 ^ 90) ∧
        |(reported (0, 0) f r l).2 - reported 0 fb rb' l| ≤ max eps (1 / 10 ^ 90) ∧
        (max eps (1 / 10 ^ 90) < |wignerD l m1 m2 (genAngle ths[n1])| → (reported (0, 0) f r l).1 = reported 0 fa ra' l) ∧
        (max eps (1 / 10 ^ 90) < |wignerD l m1 m2 (genAngle ths[n2])| → (reported (0, 0) f r l).2 = reported 0 fb rb' l) := by
  obtain ⟨g, e, hT, hP⟩ := genAfter_ok hovf h0 hL (eps := eps) hc h1 h2
  obtain ⟨f, r, p1, p2, p3, p4, p5, p6, p7⟩ := C75_pair hovf h0 hL heps hc h1 h2 hn1 hn2 hres
  have hS : ∀ {n : ℕ} (hn : n < ths.length) {ra : List ℝ} (hra : ra.length = lmax + 1), ∃ (fa : ℕ) (ra' : List ℝ),
      wcalc g n ra = ok ((fa : ℤ), ra') ∧ ∀ l : ℕ, max |m1| |m2| ≤ l → l ≤ lmax →
        reported 0 fa ra' l = wignerD l m1 m2 (genAngle ths[n]) ∨
        (reported 0 fa ra' l = 0 ∧ |wignerD l m1 m2 (genAngle ths[n])| ≤ max eps (1 / 10 ^ 90)) := by
    intro n hn ra hra
    obtain ⟨fa, a1, a2, a3, _, a5⟩ := wcalc_ok hT hP h1 h2 hn
    obtain ⟨ra', b1, b2, b3, _⟩ := a5 hra
    refine ⟨fa, ra', b1, fun l hl1 hl2 => ?_⟩
    unfold reported
    by_cases hl : l < fa
    · rw [if_pos (by omega)]
      refine Or.inr ⟨rfl, (a3 l hl1 hl hl2).trans (max_le_max le_rfl ?_)⟩
      refine le_trans ?_ (tiny2_le hL)
      have k0 := pK0_pos lmax
      have k1 := pK0_le_pK1 lmax
      have : tiny lmax = pK0 lmax * (lmax + 1) := by unfold tiny pK0 b360; ring
      rw [this]
      unfold tiny2
      exact mul_le_mul_of_nonneg_right k1 (by positivity)
    · rw [if_neg (by omega)]
      left
      have := b3 l (by omega) hl2
      rw [rd_nat (by omega)] at this
      injection this with this
      rw [← this]
      simp [List.getD, List.getElem?_eq_getElem (show l < ra'.length by omega)]
  obtain ⟨fa, ra', ea, ha⟩ := hS hn1 hra
  obtain ⟨fb, rb', eb, hb⟩ := hS hn2 hrb
  refine ⟨f, fa, fb, r, ra', rb', p1, by rw [e, ok_bind]; exact ea, by rw [e, ok_bind]; exact eb, fun l hl1 hl2 => ?_⟩
  -- the pair
  have hp : ((reported (0, 0) f r l).1 = wignerD l m1 m2 (genAngle ths[n1]) ∨
        ((reported (0, 0) f r l).1 = 0 ∧ |wignerD l m1 m2 (genAngle ths[n1])| ≤ max eps (1 / 10 ^ 90))) ∧
      ((reported (0, 0) f r l).2 = wignerD l m1 m2 (genAngle ths[n2]) ∨
        ((reported (0, 0) f r l).2 = 0 ∧ |wignerD l m1 m2 (genAngle ths[n2])| ≤ max eps (1 / 10 ^ 90))) := by
    unfold reported
    by_cases hl : l < f
    · rw [if_pos (by omega)]
      obtain ⟨x, y⟩ := p6 l hl1 hl hl2
      exact ⟨Or.inr ⟨rfl, x⟩, Or.inr ⟨rfl, y⟩⟩
    · rw [if_neg (by omega)]
      obtain ⟨a, b, ev, da, db⟩ := p5 l (by omega) hl2
      have : r.getD l (0, 0) = (a, b) := by simp [List.getD, ev]
      rw [this]
      exact ⟨da.imp id (fun q => ⟨q.1, q.2.trans (le_max_right _ _)⟩), db.imp id (fun q => ⟨q.1, q.2.trans (le_max_right _ _)⟩)⟩
  have key : ∀ {x y d B : ℝ}, 0 ≤ B → (x = d ∨ (x = 0 ∧ |d| ≤ B)) → (y = d ∨ (y = 0 ∧ |d| ≤ B)) →
      |x - y| ≤ B ∧ (B < |d| → x = y) := by
    intro x y d B hB hx hy
    rcases hx with hx | ⟨hx, hd⟩ <;> rcases hy with hy | ⟨hy, hd'⟩
    · subst hx; subst hy; simpa using hB
    · subst hx; subst hy; rw [sub_zero]; exact ⟨hd', fun h => absurd hd' (not_le.mpr h)⟩
    · subst hx; subst hy; rw [zero_sub, abs_neg]; exact ⟨hd, fun h => absurd hd (not_le.mpr h)⟩
    · subst hx; subst hy; simpa using hB
  have hB : 0 ≤ max eps (1 / 10 ^ 90) := le_max_of_le_left heps.le
  exact ⟨(key hB hp.1 (ha l hl1 hl2)).1, (key hB hp.2 (hb l hl1 hl2)).1, (key hB hp.1 (ha l hl1 hl2)).2,
    (key hB hp.2 (hb l hl1 hl2)).2⟩

theorem seq_zero {fx : List F3} {cth : ℝ} {mhi lmax : ℕ} (hfx : fx.length = lmax + 2) (h : mhi ≤ lmax) :
    Seq fx cth mhi lmax (fun _ => 0) (fun _ => 0) := by
  refine ⟨h, fun l _ h2 k => ?_, fun _ _ => rfl, rfl, fun _ _ _ => by simp, fun _ _ _ => by simp⟩
  obtain ⟨f, hf⟩ := rd_in hfx (l := l + 1) (by omega)
  rw [show (((l + 1 : ℕ) : ℤ)) = (l : ℤ) + 1 by push_cast; ring] at hf
  unfold stepRec
  rw [hf, ok_bind]
  simp

/-- C75, why the threshold has to be positive: with threshold zero, if the second function starts at or below `2^-450` and the
first one above it, the pair evaluation delivers zero for the second angle at every degree, however large the function
is there (evaluated alone, or with a positive threshold, it is delivered: `C39_calc`, `C75_pair`). -/
theorem C75_zero_threshold {ovf : Res ℤ} {v : ℤ} (hovf : ovf = ok v) {lmax : ℕ} (h0 : 0 < lmax) (hL : lmax < 46341)
    {ths : List ℝ} {calls : List Call} (hc : HistOK lmax ths.length calls)
    {m1 m2 : ℤ} (h1 : |m1| ≤ lmax) (h2 : |m2| ≤ lmax) {M : ℕ} (hM : max |m1| |m2| = M)
    {n1 n2 : ℕ} (hn1 : n1 < ths.length) (hn2 : n2 < ths.length)
    (hbig : 2 ^ (-450 : ℤ) < |wignerD M m1 m2 (genAngle ths[n1])|) (hsmall : |wignerD M m1 m2 (genAngle ths[n2])| ≤ 2 ^ (-450 : ℤ))
    {res : List V2} (hres : res.length = lmax + 1) :
    ∃ res' : List V2,
      (do let g ← genAfter ovf lmax ths 0 calls m1 m2
          pcalc g n1 n2 res) = ok ((M : ℤ), res') ∧
      ∀ l : ℕ, M ≤ l → l ≤ lmax → res'[l]? = some (wignerD l m1 m2 (genAngle ths[n1]), 0) := by
  obtain ⟨g, e, hT, hP⟩ := genAfter_ok hovf h0 hL (eps := 0) hc h1 h2
  have hlm := hT.lmax_eq
  have hMl : M ≤ g.lmax := by rw [hlm]; have := max_le h1 h2; omega
  obtain ⟨s1, r1, es1, s14, r11, r1n, f1, g1, _⟩ := pairStart_ok hT hP hM hMl hn1
  obtain ⟨s2, r2, es2, s24, r21, r2n, f2, _, g2⟩ := pairStart_ok hT hP hM hMl hn2
  have hs1 := g1 hbig
  have hs2 := g2 hsmall
  have q1 := seq_of_prepared hP hM hMl (θ := genAngle ths[n1]) (cth := Real.cos (adjTheta ths[n1]).2) (by rw [cos_genAngle])
  set d1 : ℕ → ℝ := fun l => wignerD l m1 m2 (genAngle ths[n1]) with hd1
  set pv1 : ℕ → ℝ := fun l => prevD m1 m2 l (genAngle ths[n1]) with hpv1
  set cth : V2 := (Real.cos (adjTheta ths[n1]).2, Real.cos (adjTheta ths[n2]).2) with hcth
  rw [hlm] at q1
  have hg : PairCtx g cth M lmax d1 pv1 (fun _ => 0) (fun _ => 0) := ⟨q1, seq_zero hT.fxlen (by omega), hT.fxlen, hT.cf⟩
  have c1 : rd g.costh (n1 : ℤ) = ok (Real.cos (adjTheta ths[n1]).2) := by
    rw [hT.costh, rd_nat (by simpa using hn1)]; simp
  have c2 : rd g.costh (n2 : ℤ) = ok (Real.cos (adjTheta ths[n2]).2) := by
    rw [hT.costh, rd_nat (by simpa using hn2)]; simp
  have hmhi : g.mhi = (M : ℤ) := by rw [hP.mhi_eq, hM]
  obtain ⟨pre, ep, hpre⟩ := getPre_ok hT.fxlen cth (l := M) (by omega)
  have hv : ((r1, r2) : V2) * ((wS s1, 0) : V2) = (d1 M, 0) := Prod.ext f1 (mul_zero _)
  have hz : ((0, 0) : V2) * ((wS s1, 0) : V2) = (pv1 M, 0) := by
    refine Prod.ext ?_ (mul_zero _)
    show 0 * wS s1 = pv1 M
    rw [zero_mul, q1.start]
  have hany : anyGt (d1 M, 0) g.eps := by
    left
    rw [hT.eps_eq]
    show |d1 M| > 0
    exact lt_trans (by positivity) hbig
  have hall : allGe (d1 M, 0) g.eps := by
    rw [hT.eps_eq]
    exact ⟨abs_nonneg _, abs_nonneg _⟩
  set R : List V2 := (res.set M (d1 M, 0)).set M (d1 M, 0) with hR
  obtain ⟨res4, e4, len4, hr4, _⟩ := pair4_ok hg (lmax + 2) M pre R le_rfl (by omega) (by omega) hpre (by simpa [hR] using hres)
  refine ⟨res4, ?_, fun l ha hb => ?_⟩
  · rw [e, ok_bind]
    unfold pcalc
    dsimp only
    rw [c1, ok_bind, c2, ok_bind, es1, ok_bind, es2, ok_bind, rd_cf hT.cf s14, ok_bind, rd_cf hT.cf s24, ok_bind, hmhi, ← hcth, ep, ok_bind]
    dsimp only
    rw [if_neg (show ¬ s1 < 0 by omega), if_pos hs2]
    unfold pairLow
    dsimp only
    rw [if_neg (by omega), ok_bind]
    unfold pairMid
    dsimp only
    rw [if_pos (by omega), ep, ok_bind]
    have p2 : pair2 g cth g.lmax (g.lmax + 2) pre ⟨(M : ℤ), (0, 0), (r1, r2), s1, s2, (wS s1, 0)⟩ res =
        ok (⟨(M : ℤ), (0, 0), (r1, r2), s1, s2, (wS s1, 0)⟩, res.set M (d1 M, 0)) := by
      unfold pair2
      dsimp only
      rw [hv, wr_nat _ (by omega), ok_bind, if_pos hany]
    rw [p2, ok_bind]
    dsimp only
    rw [if_neg (by omega), ep, ok_bind]
    have p3 : pair3 g cth g.lmax (g.lmax + 2) pre ⟨(M : ℤ), (0, 0), (r1, r2), s1, s2, (wS s1, 0)⟩ (res.set M (d1 M, 0)) =
        ok (⟨(M : ℤ), (0, 0), (r1, r2), s1, s2, (wS s1, 0)⟩, R) := by
      unfold pair3
      dsimp only
      rw [hv, wr_nat _ (by simp; omega), ok_bind, if_pos hall]
    rw [p3, ok_bind]
    dsimp only
    rw [if_neg (by omega), ep, ok_bind, hz, hv, hlm, e4, ok_bind]
  · have := hr4 l ha hb
    rw [rd_nat (by omega)] at this
    injection this with this
    rw [List.getElem?_eq_getElem (by omega), this]

/-- The hypotheses of C75 can be met: degrees up to 3, two angles, a history of three calls. -/
example : (0 < 3) ∧ (3 < 46341) ∧ (0 : ℝ) < 1 / 10 ^ 30 ∧ |(2 : ℤ)| ≤ (3 : ℕ) ∧ |(-1 : ℤ)| ≤ (3 : ℕ) ∧
    HistOK 3 [(1 : ℝ), 2].length [Call.prepare 1 2, Call.calcAt 1, Call.prepare (-2) 1] ∧
    (List.replicate 4 ((0, 0) : V2)).length = 3 + 1 := by
  refine ⟨by norm_num, by norm_num, by norm_num, by norm_num, by norm_num, ⟨by norm_num, by norm_num, ?_⟩, by simp⟩
  intro c hc
  simp only [List.mem_cons, List.not_mem_nil, or_false] at hc
  rcases hc with h | h <;> subst h <;> simp [Call.OK]

/-- The hypotheses of `C75_zero_threshold` can be met: orders `-45`, `45` at the angles `π/2` and `2^-9`, for every `lmax` from
45 on. -/
example : max |(-45 : ℤ)| |(45 : ℤ)| = (45 : ℕ) ∧
    2 ^ (-450 : ℤ) < |wignerD 45 (-45) (45 : ℕ) (genAngle (Real.pi / 2))| ∧
    |wignerD 45 (-45) (45 : ℕ) (genAngle (1 / 2 ^ 9))| ≤ 2 ^ (-450 : ℤ) := by
  have hpi := Real.pi_gt_three
  have e1 : genAngle (Real.pi / 2) = Real.pi / 2 := (genAngle_eq (by linarith) (by norm_num; linarith)).1
  have e2 : genAngle (1 / 2 ^ 9) = 1 / 2 ^ 9 := (genAngle_eq (by norm_num) (by norm_num; linarith)).1
  refine ⟨by norm_num, ?_, ?_⟩
  · rw [e1, wignerD_right_top 45 (by norm_num), show Real.pi / 2 / 2 = Real.pi / 4 by ring, Real.sin_pi_div_four]
    rw [show ((45 : ℕ) : ℤ) + (-45) = 0 by norm_num, show (((45 : ℕ) : ℤ) - (-45)).toNat = 90 by rfl]
    rw [show (√2 / 2 : ℝ) ^ 90 = (1 / 2) ^ 45 by
      rw [show (90 : ℕ) = 2 * 45 by norm_num, pow_mul, div_pow, Real.sq_sqrt (by norm_num)]; norm_num]
    simp only [Int.toNat_zero, pow_zero, Nat.choose_zero_right, Nat.cast_one, Real.sqrt_one, one_mul]
    rw [abs_of_pos (by positivity), one_div, inv_pow, ← zpow_natCast, ← zpow_neg]
    exact zpow_lt_zpow_right₀ (by norm_num) (by norm_num)
  · rw [e2, wignerD_right_top 45 (by norm_num)]
    rw [show ((45 : ℕ) : ℤ) + (-45) = 0 by norm_num, show (((45 : ℕ) : ℤ) - (-45)).toNat = 90 by rfl]
    simp only [Int.toNat_zero, pow_zero, Nat.choose_zero_right, Nat.cast_one, Real.sqrt_one, one_mul]
    have h0 : 0 ≤ Real.sin (1 / 2 ^ 9 / 2) := Real.sin_nonneg_of_nonneg_of_le_pi (by norm_num) (by norm_num; linarith)
    have h1 : Real.sin (1 / 2 ^ 9 / 2) ≤ 1 / 2 ^ 10 := (Real.sin_le (by norm_num)).trans (by norm_num)
    rw [abs_of_nonneg (by positivity)]
    calc Real.sin (1 / 2 ^ 9 / 2) ^ 90 ≤ (1 / 2 ^ 10) ^ 90 := pow_le_pow_left₀ h0 h1 90
      _ = 2 ^ (-900 : ℤ) := by rw [one_div, inv_pow, ← pow_mul, ← zpow_natCast, ← zpow_neg]; norm_num
      _ ≤ 2 ^ (-450 : ℤ) := zpow_le_zpow_right₀ (by norm_num) (by norm_num)

end Verif.Num
