import Verif.Num.WignerMain

/-!
# Wigner generator: property theorems (C38, C39)

Specification: `wignerD l m' m θ` (WignerD.lean) is the textbook explicit sum of the Wigner small-d function.
-/

namespace Verif.Num
open Verif Res

/-! ## `calc` only depends on the prepared part of the table -/

def EqOn (fx fx' : List F3) (mhi lmax : ℤ) : Prop := ∀ l : ℤ, mhi < l → l ≤ lmax → rd fx l = rd fx' l

section
variable {fx fx' : List F3} {mhi lmax : ℤ} (h : EqOn fx fx' mhi lmax) (cth : ℝ)
include h

theorem stepRec_congr {l : ℤ} (h1 : mhi < l) (h2 : l ≤ lmax) (r2 r1 : ℝ) : stepRec fx cth l r2 r1 = stepRec fx' cth l r2 r1 := by
  unfold stepRec; rw [h l h1 h2]

theorem phase1_congr : ∀ (n : ℕ) (l : ℤ) (r1 r2 : ℝ) (s : ℤ), mhi ≤ l →
    phase1 fx cth lmax n l r1 r2 s = phase1 fx' cth lmax n l r1 r2 s := by
  intro n
  induction n with
  | zero => intros; rfl
  | succ n ih =>
    intro l r1 r2 s hl
    unfold phase1
    split
    · split
      · rfl
      · rw [stepRec_congr h cth (by omega) (by omega)]
        congr 1; funext a
        split
        · rfl
        · rw [stepRec_congr h cth (by omega) (by omega)]
          congr 1; funext b
          congr 1; funext q
          exact ih _ _ _ _ (by omega)
    · rfl

theorem phase2_congr (eps : ℝ) : ∀ (n : ℕ) (l : ℤ) (r1 r2 : ℝ), mhi ≤ l →
    phase2 fx cth eps lmax n l r1 r2 = phase2 fx' cth eps lmax n l r1 r2 := by
  intro n
  induction n with
  | zero => intros; rfl
  | succ n ih =>
    intro l r1 r2 hl
    unfold phase2
    split
    · split
      · rfl
      · rw [stepRec_congr h cth (by omega) (by omega)]
        congr 1; funext a
        split
        · rfl
        · rw [stepRec_congr h cth (by omega) (by omega)]
          congr 1; funext b
          exact ih _ _ _ (by omega)
    · rfl

theorem phase3_congr (eps : ℝ) (l : ℤ) (r1 r2 : ℝ) (hl : mhi ≤ l) :
    phase3 fx cth eps lmax l r1 r2 = phase3 fx' cth eps lmax l r1 r2 := by
  unfold phase3
  split
  · split
    · rw [stepRec_congr h cth (by omega) (by omega)]
    · rfl
  · rfl

theorem phase4_congr : ∀ (n : ℕ) (l : ℤ) (r1 r2 : ℝ) (res : List ℝ), mhi ≤ l →
    phase4 fx cth lmax n l r1 r2 res = phase4 fx' cth lmax n l r1 r2 res := by
  intro n
  induction n with
  | zero => intros; rfl
  | succ n ih =>
    intro l r1 r2 res hl
    unfold phase4
    split
    · rw [stepRec_congr h cth (by omega) (by omega)]
      congr 1; funext a
      congr 1; funext b
      rw [stepRec_congr h cth (by omega) (by omega)]
      congr 1; funext c
      congr 1; funext d
      exact ih _ _ _ _ (by omega)
    · rfl

theorem phase5_congr : ∀ (n : ℕ) (l : ℤ) (r1 r2 : ℝ) (res : List ℝ), mhi ≤ l →
    phase5 fx cth lmax n l r1 r2 res = phase5 fx' cth lmax n l r1 r2 res := by
  intro n
  induction n with
  | zero => intros; rfl
  | succ n ih =>
    intro l r1 r2 res hl
    unfold phase5
    split
    · rfl
    · rw [stepRec_congr h cth (by omega) (by omega)]
      congr 1; funext a
      congr 1; funext b
      split
      · rfl
      · rw [stepRec_congr h cth (by omega) (by omega)]
        congr 1; funext c
        congr 1; funext d
        exact ih _ _ _ _ (by omega)
end

/-- Positions only move forward. -/
theorem phase1_mono (fx : List F3) (cth : ℝ) (lmax : ℤ) : ∀ (n : ℕ) (l : ℤ) (r1 r2 : ℝ) (s : ℤ) {q : ℤ × ℝ × ℝ × ℤ},
    phase1 fx cth lmax n l r1 r2 s = ok q → l ≤ q.1 := by
  intro n
  induction n with
  | zero => intro l r1 r2 s q hq; exact absurd hq (by unfold phase1; simp)
  | succ n ih =>
    intro l r1 r2 s q hq
    unfold phase1 at hq
    split at hq
    · split at hq
      · cases hq; simp
      · obtain ⟨a, _, hq⟩ := bind_eq_ok.mp hq
        split at hq
        · cases hq; simp
        · obtain ⟨b, _, hq⟩ := bind_eq_ok.mp hq
          obtain ⟨c, _, hq⟩ := bind_eq_ok.mp hq
          have := ih _ _ _ _ hq
          omega
    · cases hq; simp

theorem phase2_mono (fx : List F3) (cth eps : ℝ) (lmax : ℤ) : ∀ (n : ℕ) (l : ℤ) (r1 r2 : ℝ) {q : ℤ × ℝ × ℝ},
    phase2 fx cth eps lmax n l r1 r2 = ok q → l ≤ q.1 := by
  intro n
  induction n with
  | zero => intro l r1 r2 q hq; exact absurd hq (by unfold phase2; simp)
  | succ n ih =>
    intro l r1 r2 q hq
    unfold phase2 at hq
    split at hq
    · split at hq
      · cases hq; simp
      · obtain ⟨a, _, hq⟩ := bind_eq_ok.mp hq
        split at hq
        · cases hq; simp
        · obtain ⟨b, _, hq⟩ := bind_eq_ok.mp hq
          have := ih _ _ _ hq
          omega
    · cases hq; simp

theorem phase3_mono (fx : List F3) (cth eps : ℝ) (lmax l : ℤ) (r1 r2 : ℝ) {q : ℤ × ℝ × ℝ}
    (hq : phase3 fx cth eps lmax l r1 r2 = ok q) : l ≤ q.1 := by
  unfold phase3 at hq
  split at hq
  · split at hq
    · obtain ⟨a, _, hq⟩ := bind_eq_ok.mp hq
      cases hq; simp
    · cases hq; simp
  · cases hq; simp

theorem phase4_mono (fx : List F3) (cth : ℝ) (lmax : ℤ) : ∀ (n : ℕ) (l : ℤ) (r1 r2 : ℝ) (res : List ℝ) {q : ℤ × ℝ × ℝ × List ℝ},
    phase4 fx cth lmax n l r1 r2 res = ok q → l ≤ q.1 := by
  intro n
  induction n with
  | zero => intro l r1 r2 res q hq; exact absurd hq (by unfold phase4; simp)
  | succ n ih =>
    intro l r1 r2 res q hq
    unfold phase4 at hq
    split at hq
    · obtain ⟨a, _, hq⟩ := bind_eq_ok.mp hq
      obtain ⟨b, _, hq⟩ := bind_eq_ok.mp hq
      obtain ⟨c, _, hq⟩ := bind_eq_ok.mp hq
      obtain ⟨d, _, hq⟩ := bind_eq_ok.mp hq
      have := ih _ _ _ _ hq
      omega
    · cases hq; simp

theorem bind_congr_ok {α β : Type} {x : Res α} {f f' : α → Res β} (h : ∀ a, x = ok a → f a = f' a) :
    (x >>= f) = (x >>= f') := by
  cases x with
  | ok a => exact h a rfl
  | throw m => rfl
  | ub m => rfl

theorem rd_map {α β : Type} (xs : List α) (f : α → β) (n : ℤ) : rd (xs.map f) n = (rd xs n >>= fun x => ok (f x)) := by
  unfold rd
  by_cases h : 0 ≤ n ∧ n.toNat < xs.length
  · rw [dif_pos h, dif_pos (by simpa using h)]; simp
  · rw [dif_neg h, dif_neg (by simpa using h)]; rfl

/-- Two generators for the same `lmax` and threshold, prepared for the same orders, compute the same for the same angle,
whatever the other angles are. -/
theorem wcalc_congr' {g g' : Gen} {lmax : ℕ} {ths ths' : List ℝ} {eps : ℝ} (hT : Tables g lmax ths eps) (hT' : Tables g' lmax ths' eps)
    {m1 m2 : ℤ} (hP : Prepared g m1 m2) (hP' : Prepared g' m1 m2) {n n' : ℤ}
    (hth : rd ths n = rd ths' n') (res : List ℝ) :
    wcalc g n res = wcalc g' n' res := by
  have hmap : ∀ {β : Type} (f : ℝ → β), rd (ths'.map f) n' = rd (ths.map f) n := by
    intro β f
    rw [rd_map, rd_map, hth]
  have hE : EqOn g.fx g'.fx g.mhi g.lmax := by
    intro l h1 h2
    rw [hP.mhi_eq] at h1
    have h0 : 0 ≤ max |m1| |m2| := le_trans (abs_nonneg m1) (le_max_left _ _)
    obtain ⟨k, hk⟩ : ∃ k : ℕ, l = (k : ℤ) + 1 := ⟨(l - 1).toNat, by omega⟩
    rw [hk, hP.fx k (by omega) (by omega), hP'.fx k (by omega) (by rw [hT'.lmax_eq, ← hT.lmax_eq]; omega)]
  have el : g'.lmax = g.lmax := by rw [hT.lmax_eq, hT'.lmax_eq]
  have ee : g'.eps = g.eps := by rw [hT.eps_eq, hT'.eps_eq]
  have e1 : rd g'.costh n' = rd g.costh n := by rw [hT.costh, hT'.costh]; exact hmap _
  have e2 : rd g'.lc05 n' = rd g.lc05 n := by rw [hT.lc05, hT'.lc05]; exact hmap _
  have e3 : rd g'.ls05 n' = rd g.ls05 n := by rw [hT.ls05, hT'.ls05]; exact hmap _
  have e4 : rd g'.thetaflip n' = rd g.thetaflip n := by rw [hT.thetaflip, hT'.thetaflip]; exact hmap _
  have e5 : g'.cf = g.cf := by rw [hT.cf, hT'.cf]
  have e6 : g'.prefactor = g.prefactor := by rw [hP.pre, hP'.pre]
  have hq : (g'.cosPow, g'.sinPow, g'.preMinus) = (g.cosPow, g.sinPow, g.preMinus) := by rw [hP.pows, hP'.pows]
  have e7 : g'.cosPow = g.cosPow := congrArg Prod.fst hq
  have e8 : g'.sinPow = g.sinPow := congrArg (fun p => p.2.1) hq
  have e9 : g'.preMinus = g.preMinus := congrArg (fun p => p.2.2) hq
  have e10 : g'.am1 = g.am1 := by rw [hP.am1_eq, hP'.am1_eq]
  have e11 : g'.am2 = g.am2 := by rw [hP.am2_eq, hP'.am2_eq]
  have e12 : g'.mhi = g.mhi := by rw [hP.mhi_eq, hP'.mhi_eq]
  unfold wcalc
  rw [el, ee, e1, e2, e3, e4, e5, e6, e7, e8, e9, e10, e11, e12]
  refine bind_congr_ok fun cth _ => bind_congr_ok fun lc _ => bind_congr_ok fun ls _ => bind_congr_ok fun fl _ => ?_
  simp only
  rw [phase1_congr hE cth _ _ _ _ _ (le_refl _)]
  refine bind_congr_ok fun q hq1 => ?_
  have m1' := phase1_mono _ _ _ _ _ _ _ _ hq1
  obtain ⟨l, r1, r2, s⟩ := q
  simp only at m1' ⊢
  split
  · rfl
  · refine bind_congr_ok fun c _ => ?_
    rw [phase2_congr hE cth _ _ _ _ _ m1']
    refine bind_congr_ok fun q hq2 => ?_
    have m2' := phase2_mono _ _ _ _ _ _ _ _ hq2
    obtain ⟨l2, r1, r2⟩ := q
    simp only at m2' ⊢
    rw [phase3_congr hE cth _ _ _ _ (by omega)]
    refine bind_congr_ok fun q hq3 => ?_
    have m3' := phase3_mono _ _ _ _ _ _ _ hq3
    obtain ⟨l3, r1, r2⟩ := q
    simp only at m3' ⊢
    split
    · rfl
    · refine bind_congr_ok fun w _ => ?_
      rw [phase4_congr hE cth _ _ _ _ _ (by omega)]
      refine bind_congr_ok fun q hq4 => ?_
      have m4' := phase4_mono _ _ _ _ _ _ _ _ hq4
      obtain ⟨l4, r1, r2, res4⟩ := q
      simp only at m4' ⊢
      rw [phase5_congr hE cth _ _ _ _ _ (by omega)]

/-- Two generators with the same constructor arguments, prepared for the same orders, compute the same. -/
theorem wcalc_congr {g g' : Gen} {lmax : ℕ} {ths : List ℝ} {eps : ℝ} (hT : Tables g lmax ths eps) (hT' : Tables g' lmax ths eps)
    {m1 m2 : ℤ} (hP : Prepared g m1 m2) (hP' : Prepared g' m1 m2) (n : ℤ) (res : List ℝ) :
    wcalc g n res = wcalc g' n res := wcalc_congr' hT hT' hP hP' rfl res

/-! ## the properties -/

/-- A history of calls on one generator (levels/cxxsupport/ls_wigner.h:142-163). `calc` is a const member (its
convenience overload only writes the scratch member `result`, which no other member reads). -/
inductive Call where
  | prepare (m1 m2 : ℤ)
  | calcAt (nth : ℤ)

/-- The state after one call. -/
noncomputable def stepCall (ovf : Res ℤ) (g : Gen) : Call → Res Gen
  | .prepare m1 m2 => prepare ovf g m1 m2
  | .calcAt nth => do
    let _ ← wcalc g nth (List.replicate (g.lmax + 1) 0)
    ok g

/-- A call as `convolve` makes it: orders within `lmax`, an existing angle. -/
def Call.OK (lmax nth : ℕ) : Call → Prop
  | .prepare m1 m2 => |m1| ≤ lmax ∧ |m2| ≤ lmax
  | .calcAt n => 0 ≤ n ∧ n < nth

theorem tables_mkGen {lmax : ℕ} {ths : List ℝ} {eps : ℝ} (h : 0 < lmax) :
    ∃ g, mkGen lmax ths eps = ok g ∧ Tables g lmax ths eps ∧
      (g.m1 = -1234567890 ∧ g.m2 = -1234567890 ∧ g.mhi = -1234567890 ∧ g.mlo = -1234567890) := by
  unfold mkGen
  rw [if_neg (by omega)]
  refine ⟨_, rfl, ?_, rfl, rfl, rfl, rfl⟩
  constructor <;> first | rfl | simp [invl]

/-- Invariant of every reachable generator state that has been prepared. -/
theorem history_inv {ovf : Res ℤ} {v : ℤ} (hovf : ovf = ok v) {lmax : ℕ} {ths : List ℝ} {eps : ℝ} (hL : lmax < 46341) :
    ∀ (calls : List Call) (g : Gen), Tables g lmax ths eps → (∃ n1 n2 : ℤ, |n1| ≤ lmax ∧ |n2| ≤ lmax ∧ Prepared g n1 n2) →
    (∀ c ∈ calls, c.OK lmax ths.length) →
    ∃ g', foldRes (stepCall ovf) g calls = ok g' ∧ Tables g' lmax ths eps ∧
      ∃ n1 n2 : ℤ, |n1| ≤ lmax ∧ |n2| ≤ lmax ∧ Prepared g' n1 n2 := by
  intro calls
  induction calls with
  | nil => intro g hT hP _; exact ⟨g, rfl, hT, hP⟩
  | cons c cs ih =>
    intro g hT hP hc
    obtain ⟨n1, n2, b1, b2, hP⟩ := hP
    rw [foldRes_cons]
    have hc0 := hc c (by simp)
    have hcs : ∀ c ∈ cs, c.OK lmax ths.length := fun c' h => hc c' (by simp [h])
    cases c with
    | prepare m1 m2 =>
      obtain ⟨g', e, hT', hP'⟩ := prepare_ok hovf hL hT (Or.inr ⟨n1, n2, b1, b2, hP⟩) hc0.1 hc0.2
      simp only [stepCall, e, ok_bind]
      exact ih g' hT' ⟨m1, m2, hc0.1, hc0.2, hP'⟩ hcs
    | calcAt nth =>
      obtain ⟨k, hk⟩ : ∃ k : ℕ, nth = k := ⟨nth.toNat, by have := hc0.1; omega⟩
      have hk2 : k < ths.length := by have := hc0.2; rw [hk] at this; omega
      obtain ⟨f, _, _, _, _, hall⟩ := wcalc_ok hT hP b1 b2 hk2
      obtain ⟨r, e, _⟩ := hall (res := List.replicate (g.lmax + 1) 0) (by simp [hT.lmax_eq])
      simp only [stepCall, hk, e, ok_bind]
      exact ih g hT ⟨n1, n2, b1, b2, hP⟩ hcs

/-- C38: after any history of `prepare`/`calc` calls (the first call being a `prepare`), `prepare (m1,m2)` and then
`calc` behave exactly as on a generator that was just constructed.  (Exact arithmetic; `hovf`: the overflowing product
of the two initial sentinels gives some value, see `C38_first_prepare_overflows`.) -/
theorem C38_history_independent {ovf : Res ℤ} {v : ℤ} (hovf : ovf = ok v) {lmax : ℕ} (h0 : 0 < lmax) (hL : lmax < 46341)
    {ths : List ℝ} {eps : ℝ} {a1 a2 : ℤ} (ha1 : |a1| ≤ lmax) (ha2 : |a2| ≤ lmax) {calls : List Call}
    (hc : ∀ c ∈ calls, c.OK lmax ths.length) {m1 m2 : ℤ} (h1 : |m1| ≤ lmax) (h2 : |m2| ≤ lmax) (n : ℤ) (res : List ℝ) :
    (do let g ← mkGen lmax ths eps
        let g ← foldRes (stepCall ovf) g (.prepare a1 a2 :: calls)
        let g ← prepare ovf g m1 m2
        wcalc g n res) =
    (do let g ← mkGen lmax ths eps
        let g ← prepare ovf g m1 m2
        wcalc g n res) := by
  obtain ⟨g, e, hT, hf⟩ := tables_mkGen (ths := ths) (eps := eps) h0
  rw [e]
  simp only [ok_bind, foldRes_cons, stepCall]
  obtain ⟨ga, ea, hTa, hPa⟩ := prepare_ok hovf hL hT (Or.inl hf) ha1 ha2
  rw [ea]
  simp only [Res.bind]
  obtain ⟨gb, eb, hTb, b1, b2, k1, k2, hPb⟩ := history_inv hovf hL calls ga hTa ⟨a1, a2, ha1, ha2, hPa⟩ hc
  rw [eb]
  simp only [ok_bind]
  obtain ⟨gc, ec, hTc, hPc⟩ := prepare_ok hovf hL hTb (Or.inr ⟨b1, b2, k1, k2, hPb⟩) h1 h2
  obtain ⟨gd, ed, hTd, hPd⟩ := prepare_ok hovf hL hT (Or.inl hf) h1 h2
  rw [ec, ed]
  simp only [ok_bind]
  exact wcalc_congr hTc hTd hPc hPd n res

/-- Finding: the very first `prepare` on every generator multiplies the sentinels, `(-1234567890)*(-1234567890)`, which
overflows `int`; with overflow undefined (as in C++) no first `prepare` is defined. -/
theorem C38_first_prepare_overflows {msg : String} {lmax : ℕ} (h0 : 0 < lmax) (hL : lmax < 46341) {ths : List ℝ} {eps : ℝ}
    {m1 m2 : ℤ} (h1 : |m1| ≤ lmax) :
    (do let g ← mkGen lmax ths eps
        prepare (ub msg) g m1 m2) = ub msg := by
  obtain ⟨g, e, hT, f1, f2, f3, f4⟩ := tables_mkGen (ths := ths) (eps := eps) h0
  rw [e]
  simp only [ok_bind]
  unfold prepare
  rw [f1, f2]
  have := abs_le.mp h1
  rw [if_neg (by omega)]
  simp only [mulI]
  norm_num

/-- C39: on every prepared generator, `calc` for the angle number `n` returns a first degree `firstl`, and
from `firstl` on the values are the Wigner d-functions of the (pole-adjusted) angle;
elements of lower degree are at most `max eps (2 (lmax+1)^2 2^-360)` in magnitude; and `firstl` itself, if below `lmax`,
is above the threshold.  All accesses are in bounds. -/
theorem C39_calc {ovf : Res ℤ} {v : ℤ} (hovf : ovf = ok v) {lmax : ℕ} (h0 : 0 < lmax) (hL : lmax < 46341)
    {ths : List ℝ} {eps : ℝ} {m1 m2 : ℤ} (h1 : |m1| ≤ lmax) (h2 : |m2| ≤ lmax) {n : ℕ} (hn : n < ths.length)
    {res : List ℝ} (hres : res.length = lmax + 1) :
    ∃ (firstl : ℕ) (res' : List ℝ),
      (do let g ← mkGen lmax ths eps
          let g ← prepare ovf g m1 m2
          wcalc g n res) = ok ((firstl : ℤ), res') ∧ res'.length = lmax + 1 ∧
      max |m1| |m2| ≤ firstl ∧ firstl ≤ lmax + 1 ∧
      (∀ l : ℕ, firstl ≤ l → l ≤ lmax → res'[l]? = some (wignerD l m1 m2 (genAngle ths[n]))) ∧
      (∀ l : ℕ, max |m1| |m2| ≤ l → l < firstl → l ≤ lmax →
        |wignerD l m1 m2 (genAngle ths[n])| ≤ max eps (2 * (lmax + 1) ^ 2 * 2 ^ (-360 : ℤ))) ∧
      (firstl < lmax → eps < |wignerD firstl m1 m2 (genAngle ths[n])|) := by
  obtain ⟨g, e, hT, hf⟩ := tables_mkGen (ths := ths) (eps := eps) h0
  obtain ⟨g', e', hT', hP'⟩ := prepare_ok hovf hL hT (Or.inl hf) h1 h2
  obtain ⟨firstl, c, d, k, m, hall⟩ := wcalc_ok hT' hP' h1 h2 hn
  obtain ⟨res', a, b, f, _⟩ := hall hres
  refine ⟨firstl, res', ?_, b, c, d, ?_, k, m⟩
  · rw [e]; simp only [ok_bind]; rw [e']; simp only [ok_bind]; exact a
  · intro l hl1 hl2
    have := f l hl1 hl2
    rw [rd_nat (by omega)] at this
    rw [List.getElem?_eq_getElem (by omega)]
    injection this with h
    rw [h]

/-- C39: for every threshold from `1e-90` on (the library uses `1e-30`) all elements of lower degree than the first one returned are at most
the threshold in magnitude. -/
theorem C39_negligible {ovf : Res ℤ} {v : ℤ} (hovf : ovf = ok v) {lmax : ℕ} (h0 : 0 < lmax) (hL : lmax < 46341)
    {ths : List ℝ} {eps : ℝ} (heps : 1 / 10 ^ 90 ≤ eps) {m1 m2 : ℤ} (h1 : |m1| ≤ lmax) (h2 : |m2| ≤ lmax) {n : ℕ} (hn : n < ths.length)
    {res : List ℝ} (hres : res.length = lmax + 1) :
    ∃ (firstl : ℕ) (res' : List ℝ),
      (do let g ← mkGen lmax ths eps
          let g ← prepare ovf g m1 m2
          wcalc g n res) = ok ((firstl : ℤ), res') ∧
      ∀ l : ℕ, max |m1| |m2| ≤ l → l < firstl → l ≤ lmax → |wignerD l m1 m2 (genAngle ths[n])| ≤ eps := by
  obtain ⟨firstl, res', a, _, _, _, _, k, _⟩ := C39_calc hovf h0 hL (eps := eps) h1 h2 hn hres
  refine ⟨firstl, res', a, fun l a1 a2 a3 => (k l a1 a2 a3).trans (max_le le_rfl (le_trans ?_ heps))⟩
  have hlm : ((lmax : ℝ) + 1) ^ 2 ≤ 46341 ^ 2 := by
    have : (lmax : ℝ) + 1 ≤ 46341 := by exact_mod_cast hL
    exact pow_le_pow_left₀ (by positivity) this 2
  calc 2 * ((lmax : ℝ) + 1) ^ 2 * 2 ^ (-360 : ℤ) ≤ 2 * 46341 ^ 2 * 2 ^ (-360 : ℤ) := by
        have : (0 : ℝ) < 2 ^ (-360 : ℤ) := by positivity
        nlinarith
    _ ≤ 1 / 10 ^ 90 := by
        rw [zpow_neg, show (2 : ℝ) ^ (360 : ℤ) = 2 ^ (180 : ℕ) * 2 ^ (180 : ℕ) by rw [← pow_add]; rfl, ← div_eq_mul_inv,
          div_le_div_iff₀ (by positivity) (by positivity)]
        norm_num

/-- C39: the d-functions satisfy the three-term recurrence used by the program (here in its usual form). -/
theorem C39_three_term {l : ℕ} {m1 m2 : ℤ} (h1 : |m1| ≤ l) (h2 : |m2| ≤ l) (θ : ℝ) :
    l * √((((l : ℝ) + 1) ^ 2 - (m1 : ℝ) ^ 2) * (((l : ℝ) + 1) ^ 2 - (m2 : ℝ) ^ 2)) * wignerD (l + 1) m1 m2 θ =
      (2 * l + 1) * (l * (l + 1) * Real.cos θ - m1 * m2) * wignerD l m1 m2 θ
      - (l + 1) * √(((l : ℝ) ^ 2 - (m1 : ℝ) ^ 2) * ((l : ℝ) ^ 2 - (m2 : ℝ) ^ 2)) * wignerD (l - 1) m1 m2 θ := by
  have q : ∀ m : ℤ, |m| ≤ l → 0 ≤ (l : ℝ) ^ 2 - (m : ℝ) ^ 2 := by
    intro m hm
    have h : |(m : ℝ)| ≤ l := by exact_mod_cast hm
    have := pow_le_pow_left₀ (abs_nonneg _) h 2
    rw [sq_abs] at this; linarith
  rw [Real.sqrt_mul (sq_sub_sq_pos h1).le, Real.sqrt_mul (q m1 h1)]
  exact wignerD_rec l h1 h2 θ

/-- For angles away from the poles `genAngle` is the angle itself; elsewhere it differs by at most `1e-15` modulo `2π`. -/
theorem C39_angle (t : ℝ) : (0 < t → t < Real.pi - 1 / 10 ^ 15 → genAngle t = t) ∧
    ∃ k : ℤ, |genAngle t - (t - 2 * Real.pi * k)| ≤ 1 / 10 ^ 15 :=
  ⟨fun h0 h1 => (genAngle_eq h0 h1).1, genAngle_close t⟩

/-- Witness for the hypotheses of C38/C39: a generator for lmax = 3, one angle, history of three calls. -/
example : (0 < 3) ∧ (3 < 46341) ∧ |(2 : ℤ)| ≤ (3 : ℕ) ∧ |(-1 : ℤ)| ≤ (3 : ℕ) ∧
    (∀ c ∈ [Call.prepare 1 2, Call.calcAt 0, Call.prepare (-2) 1], c.OK 3 [(1 : ℝ)].length) := by
  refine ⟨by norm_num, by norm_num, by norm_num, by norm_num, ?_⟩
  intro c hc
  simp only [List.mem_cons, List.not_mem_nil, or_false] at hc
  rcases hc with h | h | h <;> subst h <;> simp [Call.OK]

end Verif.Num
