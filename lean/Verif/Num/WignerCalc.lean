import Verif.Num.WignerGen
import Mathlib.Analysis.SpecialFunctions.Pow.Real

/-!
# The Wigner generator: `calc` returns the d-functions (C39)
-/

namespace Verif.Num
open Verif Res

/-! ## the recurrence engine, for an abstract sequence -/

/-- A sequence produced by the recurrence table. -/
structure Seq (fx : List F3) (cth : ℝ) (mhi lmax : ℕ) (d pv : ℕ → ℝ) : Prop where
  le : mhi ≤ lmax
  step : ∀ l, mhi ≤ l → l < lmax → ∀ k : ℝ, stepRec fx cth ((l : ℤ) + 1) (d l * k) (pv l * k) = ok (d (l + 1) * k)
  next : ∀ l, mhi ≤ l → pv (l + 1) = d l
  start : pv mhi = 0
  bound : ∀ l, mhi ≤ l → l ≤ lmax → |d l| ≤ 1
  growth : ∀ l, mhi ≤ l → l < lmax → |d (l + 1)| ≤ 2 * (l + 1) * |d l| + |pv l|

/-- Weight of scale `s`: `2^(90 (s-4))`. -/
noncomputable def wS (s : ℤ) : ℝ := (2 : ℝ) ^ ((s - 4) * 90)

theorem wS_pos (s : ℤ) : 0 < wS s := by unfold wS; positivity

theorem wS_succ (s : ℤ) : wS (s + 1) = 2 ^ 90 * wS s := by
  unfold wS
  rw [show (s + 1 - 4) * 90 = 90 + (s - 4) * 90 by ring, zpow_add₀ (by norm_num)]
  norm_num

theorem wS_mono {s t : ℤ} (h : s ≤ t) : wS s ≤ wS t := by
  unfold wS
  exact zpow_le_zpow_right₀ (by norm_num) (by omega)

theorem small_mul : (2 : ℝ) ^ (-90 : ℤ) * 2 ^ 90 = 1 := by
  rw [zpow_neg]
  norm_num

theorem renorm_ok : ∀ (n : ℕ) (r1 r2 : ℝ) (s : ℤ), s ≤ 4 → 5 - s ≤ n → |r2| * wS s ≤ 1 →
    ∃ r1' r2' s', renorm n r1 r2 s = ok (r1', r2', s') ∧ s ≤ s' ∧ s' ≤ 4 ∧ |r2'| ≤ 2 ^ 90 ∧
      r1' * wS s' = r1 * wS s ∧ r2' * wS s' = r2 * wS s := by
  intro n
  induction n with
  | zero => intro r1 r2 s h4 hn; exfalso; push_cast at hn; omega
  | succ n ih =>
    intro r1 r2 s h4 hn hb
    unfold renorm
    split
    · rename_i hgt
      have hs : s + 1 ≤ 4 := by
        by_contra hc
        have hs3 : (4 : ℤ) ≤ s := by omega
        have h1 : wS 4 ≤ wS s := wS_mono hs3
        have h2 : wS 4 = 1 := by unfold wS; norm_num
        have h3 : (1:ℝ) < 2 ^ 90 := by norm_num
        have : 1 < |r2| * wS s := by nlinarith [abs_nonneg r2]
        linarith
      have hw : ∀ r : ℝ, r * (2 : ℝ) ^ (-90 : ℤ) * wS (s + 1) = r * wS s := by
        intro r
        rw [wS_succ, show r * (2 : ℝ) ^ (-90 : ℤ) * (2 ^ 90 * wS s) = ((2 : ℝ) ^ (-90 : ℤ) * 2 ^ 90) * (r * wS s) by ring,
          small_mul, one_mul]
      have hb' : |r2 * (2 : ℝ) ^ (-90 : ℤ)| * wS (s + 1) ≤ 1 := by
        rw [abs_mul, abs_of_pos (by positivity : (0:ℝ) < (2 : ℝ) ^ (-90 : ℤ)), hw]; exact hb
      obtain ⟨r1', r2', s', e, a, b, c, d1, d2⟩ := ih (r1 * (2 : ℝ) ^ (-90 : ℤ)) (r2 * (2 : ℝ) ^ (-90 : ℤ)) (s + 1) hs
        (by push_cast at hn; omega) hb'
      exact ⟨r1', r2', s', e, by omega, b, c, by rw [d1, hw], by rw [d2, hw]⟩
    · rename_i hle
      exact ⟨r1, r2, s, rfl, le_refl _, h4, not_lt.mp hle, rfl, rfl⟩

/-- Bound on the elements skipped while the numbers are outside the range of doubles. -/
noncomputable def tiny (lmax : ℕ) : ℝ := 2 * (lmax + 1) ^ 2 * 2 ^ (-360 : ℤ)

section
variable {fx : List F3} {cth : ℝ} {mhi lmax : ℕ} {d pv : ℕ → ℝ}

theorem Seq.step1 (h : Seq fx cth mhi lmax d pv) {l : ℕ} (h1 : mhi ≤ l) (h2 : l < lmax) {r1 r2 k : ℝ}
    (e1 : r1 * k = pv l) (e2 : r2 * k = d l) (hk : k ≠ 0) :
    ∃ r, stepRec fx cth ((l : ℤ) + 1) r2 r1 = ok r ∧ r * k = d (l + 1) := by
  have := h.step l h1 h2 (1 / k)
  refine ⟨d (l + 1) * (1 / k), ?_, by field_simp⟩
  rw [← this, ← e1, ← e2]
  congr 1 <;> field_simp

theorem phase1_ok (h : Seq fx cth mhi lmax d pv) : ∀ (n l : ℕ) (r1 r2 : ℝ) (s : ℤ),
    mhi ≤ l → l ≤ lmax → lmax < l + 2 * n → s ≤ 4 → |r2| ≤ 2 ^ 90 → r1 * wS s = pv l → r2 * wS s = d l →
    (∀ j, mhi ≤ j → j < l → |d j| ≤ 2 * (lmax + 1) * 2 ^ (-360 : ℤ) * (j + 1)) →
    ∃ l' r1' r2' s', phase1 fx cth lmax n l r1 r2 s = ok (l', r1', r2', s') ∧
      ((s' < 0 ∧ ∀ j, mhi ≤ j → j ≤ lmax → |d j| ≤ tiny lmax) ∨
       (0 ≤ s' ∧ s' ≤ 4 ∧ ∃ L : ℕ, l' = L ∧ mhi ≤ L ∧ L ≤ lmax ∧ r1' * wS s' = pv L ∧ r2' * wS s' = d L ∧
          ∀ j, mhi ≤ j → j < L → |d j| ≤ tiny lmax)) := by
  set b : ℝ := 2 ^ (-360 : ℤ) with hb
  have hb0 : 0 < b := by positivity
  have htiny : ∀ j : ℕ, j ≤ lmax → 2 * ((lmax : ℝ) + 1) * b * (j + 1) ≤ tiny lmax := by
    intro j hj
    unfold tiny
    have : (j : ℝ) + 1 ≤ lmax + 1 := by exact_mod_cast Nat.succ_le_succ hj
    have h2 : 0 ≤ 2 * ((lmax : ℝ) + 1) * b := by positivity
    calc _ ≤ 2 * ((lmax : ℝ) + 1) * b * (lmax + 1) := mul_le_mul_of_nonneg_left this h2
      _ = _ := by rw [hb]; ring
  intro n
  induction n with
  | zero => intro l r1 r2 s h1 h2 h3; omega
  | succ n ih =>
    intro l r1 r2 s hml hll hn hs4 hr2 e1 e2 hsk
    unfold phase1
    by_cases hs : s < 0
    · rw [if_pos hs]
      -- the current element is tiny
      have hcur : |d l| ≤ b := by
        rw [← e2, abs_mul, abs_of_pos (wS_pos s)]
        have h1 : wS s ≤ wS (-1) := wS_mono (by omega)
        have h2 : (2:ℝ) ^ 90 * wS (-1) = b := by
          rw [← wS_succ, hb]; unfold wS; norm_num
        calc |r2| * wS s ≤ 2 ^ 90 * wS (-1) := mul_le_mul hr2 h1 (wS_pos s).le (by positivity)
          _ = b := h2
      have hbj : ∀ j : ℕ, b ≤ 2 * ((lmax : ℝ) + 1) * b * (j + 1) := by
        intro j
        have h1 : (1:ℝ) ≤ 2 * ((lmax : ℝ) + 1) * (j + 1) := by
          have : (0:ℝ) ≤ lmax := Nat.cast_nonneg _
          have : (0:ℝ) ≤ j := Nat.cast_nonneg _
          nlinarith
        nlinarith
      have hsk' : ∀ j, mhi ≤ j → j < l + 1 → |d j| ≤ 2 * ((lmax : ℝ) + 1) * b * (j + 1) := by
        intro j h1 h2
        by_cases hj : j < l
        · exact hsk j h1 hj
        · have : j = l := by omega
          subst this
          exact hcur.trans (hbj j)
      by_cases hl1 : l = lmax
      · rw [if_pos (by omega)]
        exact ⟨_, _, _, _, rfl, Or.inl ⟨hs, fun j h1 h2 => (hsk' j h1 (by omega)).trans (htiny j h2)⟩⟩
      rw [if_neg (by omega)]
      obtain ⟨ra, ea, fa⟩ := h.step1 hml (by omega) e1 e2 (wS_pos s).ne'
      simp only [ea, ok_bind]
      have hpv : |pv l| ≤ 2 * ((lmax : ℝ) + 1) * b * l := by
        by_cases hm : l = mhi
        · subst hm; rw [h.start, abs_zero]; positivity
        · have := h.next (l - 1) (by omega)
          rw [show l - 1 + 1 = l by omega] at this
          rw [this]
          have h3 := hsk (l - 1) (by omega) (by omega)
          have h4 : (((l - 1 : ℕ) : ℝ) + 1) = l := by exact_mod_cast (by omega : l - 1 + 1 = l)
          rwa [h4] at h3
      have hnew : |d (l + 1)| ≤ 2 * ((lmax : ℝ) + 1) * b * (((l + 1 : ℕ) : ℝ) + 1) := by
        have hg := h.growth l hml (by omega)
        have hll' : (l : ℝ) ≤ lmax := by exact_mod_cast hll
        have h5 : 2 * ((l : ℝ) + 1) * |d l| ≤ 2 * ((lmax : ℝ) + 1) * b :=
          mul_le_mul (by linarith) hcur (abs_nonneg _) (by positivity)
        have h6 : (0:ℝ) ≤ 2 * ((lmax : ℝ) + 1) * b := by positivity
        push_cast
        nlinarith
      have hsk'' : ∀ j, mhi ≤ j → j < l + 2 → |d j| ≤ 2 * ((lmax : ℝ) + 1) * b * (j + 1) := by
        intro j h1 h2
        by_cases hj : j < l + 1
        · exact hsk' j h1 hj
        · have : j = l + 1 := by omega
          subst this
          exact hnew
      by_cases hl2 : l + 1 = lmax
      · rw [if_pos (by omega)]
        exact ⟨_, _, _, _, rfl, Or.inl ⟨hs, fun j h1 h2 => (hsk'' j h1 (by omega)).trans (htiny j h2)⟩⟩
      rw [if_neg (by omega)]
      have fp : r2 * wS s = pv (l + 1) := by rw [h.next l hml, e2]
      obtain ⟨rb, eb, fb⟩ := h.step1 (l := l + 1) (by omega) (by omega) fp fa (wS_pos s).ne'
      rw [show (((l + 1 : ℕ) : ℤ) + 1) = (l : ℤ) + 2 by push_cast; ring] at eb
      simp only [eb, ok_bind]
      have hbnd : |rb| * wS s ≤ 1 := by
        rw [← abs_of_pos (wS_pos s), ← abs_mul, fb]
        exact h.bound _ (by omega) (by omega)
      obtain ⟨r1', r2', s', e, a, b4, c, d1, d2⟩ := renorm_ok (20 - s).toNat ra rb s hs4 (by omega) hbnd
      simp only [e, ok_bind]
      have hpn : pv (l + 2) = d (l + 1) := h.next (l + 1) (by omega)
      have := ih (l + 2) r1' r2' s' (by omega) (by omega) (by omega) b4 c (by rw [d1, fa, hpn]) (by rw [d2, fb]) hsk''
      rw [show (((l + 2 : ℕ) : ℤ)) = (l : ℤ) + 2 by push_cast; ring] at this
      exact this
    · rw [if_neg hs]
      exact ⟨_, _, _, _, rfl, Or.inr ⟨by omega, hs4, l, rfl, hml, hll, e1, e2,
        fun j h1 h2 => (hsk j h1 h2).trans (htiny j (by omega))⟩⟩

theorem Seq.stepN (h : Seq fx cth mhi lmax d pv) {l : ℕ} (h1 : mhi ≤ l) (h2 : l < lmax) :
    stepRec fx cth ((l : ℤ) + 1) (d l) (pv l) = ok (d (l + 1)) := by
  have := h.step l h1 h2 1
  simpa using this

theorem Seq.stepN2 (h : Seq fx cth mhi lmax d pv) {l : ℕ} (h1 : mhi ≤ l) (h2 : l + 1 < lmax) :
    stepRec fx cth ((l : ℤ) + 2) (d (l + 1)) (d l) = ok (d (l + 2)) := by
  have := h.stepN (l := l + 1) (by omega) h2
  rw [h.next l h1, show (((l + 1 : ℕ) : ℤ) + 1) = (l : ℤ) + 2 by push_cast; ring] at this
  exact this

theorem phase2_ok (h : Seq fx cth mhi lmax d pv) (eps : ℝ) : ∀ (n l : ℕ), mhi ≤ l → l ≤ lmax → lmax < l + 2 * n →
    ∃ L : ℕ, phase2 fx cth eps lmax n l (pv l) (d l) = ok ((L : ℤ), pv L, d L) ∧ l ≤ L ∧ L ≤ lmax ∧
      (∀ j, l ≤ j → j < L → |d j| ≤ eps) ∧ (L + 1 < lmax → |d L| > eps) := by
  intro n
  induction n with
  | zero => intro l h1 h2 h3; omega
  | succ n ih =>
    intro l hml hll hn
    unfold phase2
    by_cases hl : (l : ℤ) < (lmax : ℤ) - 1
    · rw [if_pos hl]
      by_cases hb : |d l| > eps
      · rw [if_pos hb]
        exact ⟨l, rfl, le_refl _, hll, fun j h1 h2 => by omega, fun _ => hb⟩
      · rw [if_neg hb]
        simp only [h.stepN hml (by omega), ok_bind]
        by_cases hb1 : |d (l + 1)| > eps
        · rw [if_pos hb1]
          refine ⟨l + 1, ?_, by omega, by omega, fun j h1 h2 => ?_, fun _ => hb1⟩
          · rw [h.next l hml]; push_cast; rfl
          · rw [show j = l by omega]; exact not_lt.mp hb
        · rw [if_neg hb1]
          simp only [h.stepN2 hml (by omega), ok_bind]
          obtain ⟨L, e, a1, a2, a3, a4⟩ := ih (l + 2) (by omega) (by omega) (by omega)
          rw [h.next (l + 1) (by omega), show (((l + 2 : ℕ) : ℤ)) = (l : ℤ) + 2 by push_cast; ring] at e
          refine ⟨L, e, by omega, a2, fun j h1 h2 => ?_, a4⟩
          rcases Nat.lt_or_ge j (l + 2) with hj | hj
          · rcases Nat.lt_or_ge j (l + 1) with hj' | hj'
            · rw [show j = l by omega]; exact not_lt.mp hb
            · rw [show j = l + 1 by omega]; exact not_lt.mp hb1
          · exact a3 j hj h2
    · rw [if_neg hl]
      exact ⟨l, rfl, le_refl _, hll, fun j h1 h2 => by omega, fun h' => by omega⟩

theorem phase3_ok (h : Seq fx cth mhi lmax d pv) (eps : ℝ) {l : ℕ} (hml : mhi ≤ l) (hll : l ≤ lmax) :
    ∃ (L : ℕ) (r1 r2 : ℝ), phase3 fx cth eps lmax l (pv l) (d l) = ok ((L : ℤ), r1, r2) ∧ l ≤ L ∧ L ≤ lmax + 1 ∧ L ≤ l + 1 ∧
      (L ≤ lmax → r1 = pv L ∧ r2 = d L) ∧ (∀ j, l ≤ j → j < L → |d j| ≤ eps) ∧ (L = l → |d l| > eps) := by
  unfold phase3
  by_cases hb : |d l| ≤ eps
  · rw [if_pos hb]
    by_cases hl : l + 1 ≤ lmax
    · rw [if_pos (by omega)]
      simp only [h.stepN hml (by omega), ok_bind]
      refine ⟨l + 1, d l, d (l + 1), by push_cast; rfl, by omega, by omega, by omega, fun _ => ⟨(h.next l hml).symm, rfl⟩,
        fun j h1 h2 => ?_, fun h' => by omega⟩
      rw [show j = l by omega]; exact hb
    · rw [if_neg (by omega)]
      refine ⟨l + 1, pv l, d l, by push_cast; rfl, by omega, by omega, by omega, fun h' => by omega,
        fun j h1 h2 => ?_, fun h' => by omega⟩
      rw [show j = l by omega]; exact hb
  · rw [if_neg hb]
    exact ⟨l, pv l, d l, rfl, le_refl _, by omega, by omega, fun _ => ⟨rfl, rfl⟩, fun j h1 h2 => by omega, fun _ => not_le.mp hb⟩

theorem rd_set_ne {α : Type} {xs : List α} {i j : ℕ} (v : α) (h : i ≠ j) : rd (xs.set i v) (j : ℤ) = rd xs (j : ℤ) := by
  by_cases hj : j < xs.length
  · rw [rd_nat (by simpa using hj), rd_nat hj, List.getElem_set_ne h]
  · rw [rd_ub (Or.inr (by simp; omega)), rd_ub (Or.inr (by omega))]

theorem rd_set_self {α : Type} {xs : List α} {i : ℕ} (v : α) (h : i < xs.length) : rd (xs.set i v) (i : ℤ) = ok v := by
  rw [rd_nat (by simpa using h), List.getElem_set_self]

theorem phase4_ok (h : Seq fx cth mhi lmax d pv) : ∀ (n l : ℕ) (res : List ℝ), mhi ≤ l → l ≤ lmax → lmax < l + 2 * n →
    res.length = lmax + 1 →
    ∃ (L : ℕ) (res' : List ℝ), phase4 fx cth lmax n l (pv l) (d l) res = ok ((L : ℤ), pv L, d L, res') ∧ l ≤ L ∧ L ≤ lmax ∧
      res'.length = lmax + 1 ∧ (∀ j : ℕ, l < j → j ≤ L → rd res' (j : ℤ) = ok (d j)) ∧
      (∀ j : ℕ, j ≤ l → rd res' (j : ℤ) = rd res (j : ℤ)) := by
  intro n
  induction n with
  | zero => intro l res h1 h2 h3; omega
  | succ n ih =>
    intro l res hml hll hn hlen
    unfold phase4
    by_cases hl : (l : ℤ) < (lmax : ℤ) - 1
    · rw [if_pos hl]
      have w1 : wr res ((l : ℤ) + 1) (d (l + 1)) = ok (res.set (l + 1) (d (l + 1))) := by
        have := wr_nat (xs := res) (i := l + 1) (d (l + 1)) (by omega)
        rwa [show (((l + 1 : ℕ) : ℤ)) = (l : ℤ) + 1 by push_cast; ring] at this
      have w2 : wr (res.set (l + 1) (d (l + 1))) ((l : ℤ) + 2) (d (l + 2)) =
          ok ((res.set (l + 1) (d (l + 1))).set (l + 2) (d (l + 2))) := by
        have := wr_nat (xs := res.set (l + 1) (d (l + 1))) (i := l + 2) (d (l + 2)) (by simp; omega)
        rwa [show (((l + 2 : ℕ) : ℤ)) = (l : ℤ) + 2 by push_cast; ring] at this
      simp only [h.stepN hml (by omega), ok_bind, w1, h.stepN2 hml (by omega), w2]
      obtain ⟨L, res', e, a1, a2, a3, a4, a5⟩ := ih (l + 2) ((res.set (l + 1) (d (l + 1))).set (l + 2) (d (l + 2)))
        (by omega) (by omega) (by omega) (by simpa using hlen)
      rw [h.next (l + 1) (by omega), show (((l + 2 : ℕ) : ℤ)) = (l : ℤ) + 2 by push_cast; ring] at e
      refine ⟨L, res', e, by omega, a2, a3, fun j h1 h2 => ?_, fun j hj => ?_⟩
      · rcases Nat.lt_or_ge (l + 2) j with hj | hj
        · exact a4 j hj h2
        · rw [a5 j hj]
          rcases Nat.eq_or_lt_of_le hj with rfl | hj'
          · exact rd_set_self _ (by simp; omega)
          · rw [rd_set_ne _ (by omega), show j = l + 1 by omega]
            exact rd_set_self _ (by omega)
      · rw [a5 j (by omega), rd_set_ne _ (by omega), rd_set_ne _ (by omega)]
    · rw [if_neg hl]
      exact ⟨l, res, rfl, le_refl _, hll, hlen, fun j h1 h2 => by omega, fun j _ => rfl⟩

theorem phase5_ok (h : Seq fx cth mhi lmax d pv) : ∀ (n l : ℕ) (res : List ℝ), mhi ≤ l → l ≤ lmax → lmax < l + 2 * n →
    res.length = lmax + 1 →
    ∃ res' : List ℝ, phase5 fx cth lmax n l (pv l) (d l) res = ok res' ∧
      res'.length = lmax + 1 ∧ (∀ j : ℕ, l < j → j ≤ lmax → rd res' (j : ℤ) = ok (d j)) ∧
      (∀ j : ℕ, j ≤ l → rd res' (j : ℤ) = rd res (j : ℤ)) := by
  intro n
  induction n with
  | zero => intro l res h1 h2 h3; omega
  | succ n ih =>
    intro l res hml hll hn hlen
    unfold phase5
    by_cases hl : l = lmax
    · rw [if_pos (by omega)]
      exact ⟨res, rfl, hlen, fun j h1 h2 => by omega, fun j _ => rfl⟩
    rw [if_neg (by omega)]
    have w1 : wr res ((l : ℤ) + 1) (d (l + 1)) = ok (res.set (l + 1) (d (l + 1))) := by
      have := wr_nat (xs := res) (i := l + 1) (d (l + 1)) (by omega)
      rwa [show (((l + 1 : ℕ) : ℤ)) = (l : ℤ) + 1 by push_cast; ring] at this
    simp only [h.stepN hml (by omega), ok_bind, w1]
    by_cases hl2 : l + 1 = lmax
    · rw [if_pos (by omega)]
      refine ⟨_, rfl, by simpa using hlen, fun j h1 h2 => ?_, fun j hj => rd_set_ne _ (by omega)⟩
      rw [show j = l + 1 by omega]; exact rd_set_self _ (by omega)
    rw [if_neg (by omega)]
    have w2 : wr (res.set (l + 1) (d (l + 1))) ((l : ℤ) + 2) (d (l + 2)) =
        ok ((res.set (l + 1) (d (l + 1))).set (l + 2) (d (l + 2))) := by
      have := wr_nat (xs := res.set (l + 1) (d (l + 1))) (i := l + 2) (d (l + 2)) (by simp; omega)
      rwa [show (((l + 2 : ℕ) : ℤ)) = (l : ℤ) + 2 by push_cast; ring] at this
    simp only [h.stepN2 hml (by omega), ok_bind, w2]
    obtain ⟨res', e, a3, a4, a5⟩ := ih (l + 2) ((res.set (l + 1) (d (l + 1))).set (l + 2) (d (l + 2)))
      (by omega) (by omega) (by omega) (by simpa using hlen)
    rw [h.next (l + 1) (by omega), show (((l + 2 : ℕ) : ℤ)) = (l : ℤ) + 2 by push_cast; ring] at e
    refine ⟨res', e, a3, fun j h1 h2 => ?_, fun j hj => ?_⟩
    · rcases Nat.lt_or_ge (l + 2) j with hj | hj
      · exact a4 j hj h2
      · rw [a5 j hj]
        rcases Nat.eq_or_lt_of_le hj with rfl | hj'
        · exact rd_set_self _ (by simp; omega)
        · rw [rd_set_ne _ (by omega), show j = l + 1 by omega]
          exact rd_set_self _ (by omega)
    · rw [a5 j (by omega), rd_set_ne _ (by omega), rd_set_ne _ (by omega)]

end

end Verif.Num
