import Verif.Num.KernelProof

/-!
# The harmonic kernel: property theorems (C16, C17, C20, C40)

Specification: `kterm` (KernelSpec.lean), `wignerD` (WignerD.lean).  `genAngle θ` is `θ` moved off the poles by at most
`1e-15` (`C39_angle`).
-/

namespace Verif.Num
open Verif Res Finset

/-- The threshold below which the generator may drop elements: `conv_acc`, or the smallest scaled number. -/
noncomputable def tau (lmax : ℕ) (eps : ℝ) : ℝ := max eps (2 * ((lmax : ℝ) + 1) ^ 2 * 2 ^ (-360 : ℤ))

/-- `F m m' ring` is an admissible first degree: at least `max |m| m'`, at most `lmax + 1`, and a degree is left out only
if one of the two elements `d^l_{m',±m}` is negligible. -/
structure FirstOK (F : ℤ → ℕ → ℕ → ℕ) (lmax npsi : ℕ) (ths : List ℝ) (eps : ℝ) : Prop where
  lo : ∀ (m : ℤ) (mb lat : ℕ), |m| ≤ lmax → mb < npsi → lat < ths.length → mb ≤ F m mb lat ∧ m.natAbs ≤ F m mb lat
  hi : ∀ (m : ℤ) (mb lat : ℕ), |m| ≤ lmax → mb < npsi → lat < ths.length → F m mb lat ≤ lmax + 1
  dropped : ∀ (m : ℤ) (mb lat : ℕ), |m| ≤ lmax → mb < npsi → lat < ths.length → ∀ l : ℕ, mb ≤ l → m.natAbs ≤ l → l < F m mb lat → l ≤ lmax →
    |wignerD l mb m (genAngle (ths.getD lat 0))| ≤ tau lmax eps ∨ |wignerD l mb (-m) (genAngle (ths.getD lat 0))| ≤ tau lmax eps

theorem kfirst_ok {ovf : Res ℤ} {v : ℤ} (hovf : ovf = ok v) {lmax npsi : ℕ} (h0 : 0 < lmax) (hL : lmax < 46341)
    (hn : npsi ≤ lmax + 1) (ths : List ℝ) (eps : ℝ) :
    FirstOK (fun m mb lat => kfirst ovf lmax ths eps mb m.natAbs lat) lmax npsi ths eps := by
  have key : ∀ (m : ℤ) (mb lat : ℕ), |m| ≤ lmax → mb < npsi → ∀ hlat : lat < ths.length, ∀ k : ℤ, k = m.natAbs ∨ k = -m.natAbs →
      max (mb : ℤ) m.natAbs ≤ firstDeg ovf lmax ths eps mb k lat ∧ firstDeg ovf lmax ths eps mb k lat ≤ lmax + 1 ∧
      (∀ l : ℕ, max (mb : ℤ) m.natAbs ≤ l → l < firstDeg ovf lmax ths eps mb k lat → l ≤ lmax →
        |wignerD l mb k (genAngle ths[lat])| ≤ max eps (tiny lmax)) := by
    intro m mb lat hm hmb hlat k hk
    have e : |(m.natAbs : ℤ)| = m.natAbs := abs_of_nonneg (by omega)
    have eb : |(mb : ℤ)| = mb := abs_of_nonneg (by omega)
    have hm' : m.natAbs ≤ lmax := by rw [Int.abs_eq_natAbs] at hm; exact_mod_cast hm
    have ek : |k| = m.natAbs := by rcases hk with rfl | rfl <;> simp
    have a := calc_any hovf h0 hL (eps := eps) (m1 := mb) (m2 := k) (by rw [eb]; omega) (by rw [ek]; omega) hlat
    rw [ek, eb] at a
    exact ⟨a.1, a.2.1, a.2.2.1⟩
  have hth : ∀ {lat : ℕ} (hlat : lat < ths.length), ths[lat] = ths.getD lat 0 := by
    intro lat hlat; rw [List.getD_eq_getElem?_getD, List.getElem?_eq_getElem hlat]; rfl
  refine ⟨fun m mb lat hm hmb hlat => ?_, fun m mb lat hm hmb hlat => ?_, fun m mb lat hm hmb hlat l h1 h2 h3 h4 => ?_⟩
  · obtain ⟨a1, _⟩ := key m mb lat hm hmb hlat _ (Or.inl rfl)
    have b1 := le_trans (le_max_left _ _) a1
    have b2 := le_trans (le_max_right _ _) a1
    exact ⟨le_trans (by exact_mod_cast b1) (le_max_left _ _), le_trans (by exact_mod_cast b2) (le_max_left _ _)⟩
  · obtain ⟨_, a2, _⟩ := key m mb lat hm hmb hlat _ (Or.inl rfl)
    obtain ⟨_, b2, _⟩ := key m mb lat hm hmb hlat _ (Or.inr rfl)
    exact max_le a2 b2
  · obtain ⟨_, _, a3⟩ := key m mb lat hm hmb hlat _ (Or.inl rfl)
    obtain ⟨_, _, b3⟩ := key m mb lat hm hmb hlat _ (Or.inr rfl)
    have hmx : max (mb : ℤ) (m.natAbs : ℤ) ≤ l := max_le (by omega) (by omega)
    rw [hth hlat] at a3 b3
    have hsgn : (m = m.natAbs) ∨ (m = -m.natAbs) := by omega
    unfold tau
    have ht : tiny lmax = 2 * ((lmax : ℝ) + 1) ^ 2 * 2 ^ (-360 : ℤ) := rfl
    rw [← ht]
    rcases lt_max_iff.mp h3 with h | h
    · have := a3 l hmx h h4
      rcases hsgn with e | e
      · left; rw [e]; exact this
      · right; rw [e, neg_neg]; exact this
    · have := b3 l hmx h h4
      rcases hsgn with e | e
      · right; rw [e]; exact this
      · left; rw [e]; exact this

/-- C16, C17: the parallel accumulation is defined (all accesses in bounds), and there are first degrees — depending on
the resolution, the rings and the threshold only — such that for every polarisation mode, all expansions and
every schedule, the cell for sky order `m` (either sign), beam order `mb` and ring `lat` is the sum
of the products of coefficients and d-functions at the ring's colatitude `θ` (north) and `π - θ` (south). -/
theorem accumulate_cells {ovf : Res ℤ} {v : ℤ} (hovf : ovf = ok v) {lmax npsi : ℕ} (h0 : 0 < lmax) (hL : lmax < 46341)
    (hn : npsi ≤ lmax + 1) (ths : List ℝ) (eps : ℝ) :
    ∃ F, FirstOK F lmax npsi ths eps ∧ ∀ (pol : Bool) (s b : Exps), KernelOK pol s b lmax npsi → ∀ sc : Sched, sc.OK lmax →
      ∃ C1 C2, accumulate ovf sc pol s b lmax npsi ths eps = ok (C1, C2) ∧
        (C1.n1 = 2 * lmax + 1 ∧ C1.n2 = npsi ∧ C1.n3 = ths.length) ∧ (C2.n1 = 2 * lmax + 1 ∧ C2.n2 = npsi ∧ C2.n3 = ths.length) ∧
        ∀ m : ℤ, |m| ≤ lmax → ∀ mb lat : ℕ, mb < npsi → lat < ths.length →
          C1.val (m + lmax).toNat mb lat = ∑ l ∈ Ico (F m mb lat) (lmax + 1), kterm pol s b l m mb (genAngle (ths.getD lat 0)) ∧
          C2.val (m + lmax).toNat mb lat =
            ∑ l ∈ Ico (F m mb lat) (lmax + 1), kterm pol s b l m mb (Real.pi - genAngle (ths.getD lat 0)) := by
  refine ⟨_, kfirst_ok hovf h0 hL hn ths eps, fun pol s b h sc hsc => ⟨_, _, accumulate_ok hovf h hsc ths eps, ⟨rfl, rfl, rfl⟩,
    ⟨rfl, rfl, rfl⟩, fun m hm mb lat hmb hlat => ?_⟩⟩
  constructor
  · show 0 + dall ovf pol s b lmax npsi ths eps id _ _ _ = _
    rw [zero_add, dall_apply hm hmb hlat]; rfl
  · show 0 + dall ovf pol s b lmax npsi ths eps _ _ _ _ = _
    rw [zero_add, dall_apply hm hmb hlat]

/-- C16/C17 without reference to the first degree, if both elements of the lowest degree are above the threshold: the sums are complete. -/
theorem accumulate_complete {ovf : Res ℤ} {v : ℤ} (hovf : ovf = ok v) {lmax npsi : ℕ} {pol : Bool} {s b : Exps}
    (h : KernelOK pol s b lmax npsi) {ths : List ℝ} {eps : ℝ} {sc : Sched} (hsc : sc.OK lmax) {m : ℤ} {mb lat : ℕ}
    (hm : |m| ≤ lmax) (hmb : mb < npsi) (hlat : lat < ths.length)
    (hbig : tau lmax eps < |wignerD (max m.natAbs mb) mb m (genAngle (ths.getD lat 0))| ∧
      tau lmax eps < |wignerD (max m.natAbs mb) mb (-m) (genAngle (ths.getD lat 0))|) :
    ∃ C1 C2, accumulate ovf sc pol s b lmax npsi ths eps = ok (C1, C2) ∧
      C1.val (m + lmax).toNat mb lat =
        ∑ l ∈ Icc (max m.natAbs mb) lmax, kterm pol s b l m mb (genAngle (ths.getD lat 0)) ∧
      C2.val (m + lmax).toNat mb lat =
        ∑ l ∈ Icc (max m.natAbs mb) lmax, kterm pol s b l m mb (Real.pi - genAngle (ths.getD lat 0)) := by
  obtain ⟨F, hF, hall⟩ := accumulate_cells hovf h.pos h.lt h.npsi_le ths eps
  obtain ⟨C1, C2, e, _, _, hv⟩ := hall pol s b h sc hsc
  refine ⟨C1, C2, e, ?_⟩
  obtain ⟨v1, v2⟩ := hv m hm mb lat hmb hlat
  obtain ⟨l1, l2⟩ := hF.lo m mb lat hm hmb hlat
  have hnp := h.npsi_le
  have hm' : m.natAbs ≤ lmax := by rw [Int.abs_eq_natAbs] at hm; exact_mod_cast hm
  have hFe : F m mb lat = max m.natAbs mb := by
    by_contra hne
    have hlt : max m.natAbs mb < F m mb lat := lt_of_le_of_ne (max_le l2 l1) (Ne.symm hne)
    have hle : max m.natAbs mb ≤ lmax := max_le hm' (by omega)
    have b := hbig
    rcases hF.dropped m mb lat hm hmb hlat (max m.natAbs mb) (le_max_right _ _) (le_max_left _ _) hlt hle with d | d
    · exact absurd b.1 (not_lt.mpr d)
    · exact absurd b.2 (not_lt.mpr d)
  rw [v1, v2, hFe]
  have : Ico (max m.natAbs mb) (lmax + 1) = Icc (max m.natAbs mb) lmax := by ext x; simp only [mem_Ico, mem_Icc]; omega
  rw [this]
  exact ⟨rfl, rfl⟩

/-- C16: the northern cube. -/
theorem C16_north {ovf : Res ℤ} {v : ℤ} (hovf : ovf = ok v) {lmax npsi : ℕ} (h0 : 0 < lmax) (hL : lmax < 46341)
    (hn : npsi ≤ lmax + 1) (ths : List ℝ) (eps : ℝ) :
    ∃ F, FirstOK F lmax npsi ths eps ∧ ∀ (pol : Bool) (s b : Exps), KernelOK pol s b lmax npsi → ∀ sc : Sched, sc.OK lmax →
      ∃ C1 C2, accumulate ovf sc pol s b lmax npsi ths eps = ok (C1, C2) ∧
        (C1.n1 = 2 * lmax + 1 ∧ C1.n2 = npsi ∧ C1.n3 = ths.length) ∧
        ∀ m : ℤ, |m| ≤ lmax → ∀ mb lat : ℕ, mb < npsi → lat < ths.length →
          C1.val (m + lmax).toNat mb lat =
            ∑ l ∈ Ico (F m mb lat) (lmax + 1), kterm pol s b l m mb (genAngle (ths.getD lat 0)) := by
  obtain ⟨F, hF, hall⟩ := accumulate_cells hovf h0 hL hn ths eps
  refine ⟨F, hF, fun pol s b h sc hsc => ?_⟩
  obtain ⟨C1, C2, e, d1, _, hv⟩ := hall pol s b h sc hsc
  exact ⟨C1, C2, e, d1, fun m hm mb lat hmb hlat => (hv m hm mb lat hmb hlat).1⟩

/-- C17: the southern cube is the northern formula at `π - θ`, with the same first degrees (those of the northern ring). -/
theorem C17_south {ovf : Res ℤ} {v : ℤ} (hovf : ovf = ok v) {lmax npsi : ℕ} (h0 : 0 < lmax) (hL : lmax < 46341)
    (hn : npsi ≤ lmax + 1) (ths : List ℝ) (eps : ℝ) :
    ∃ F, FirstOK F lmax npsi ths eps ∧ ∀ (pol : Bool) (s b : Exps), KernelOK pol s b lmax npsi → ∀ sc : Sched, sc.OK lmax →
      ∃ C1 C2, accumulate ovf sc pol s b lmax npsi ths eps = ok (C1, C2) ∧
        (C2.n1 = 2 * lmax + 1 ∧ C2.n2 = npsi ∧ C2.n3 = ths.length) ∧
        ∀ m : ℤ, |m| ≤ lmax → ∀ mb lat : ℕ, mb < npsi → lat < ths.length →
          C2.val (m + lmax).toNat mb lat =
            ∑ l ∈ Ico (F m mb lat) (lmax + 1), kterm pol s b l m mb (Real.pi - genAngle (ths.getD lat 0)) := by
  obtain ⟨F, hF, hall⟩ := accumulate_cells hovf h0 hL hn ths eps
  refine ⟨F, hF, fun pol s b h sc hsc => ?_⟩
  obtain ⟨C1, C2, e, _, d2, hv⟩ := hall pol s b h sc hsc
  exact ⟨C1, C2, e, d2, fun m hm mb lat hmb hlat => (hv m hm mb lat hmb hlat).2⟩

/-- C16: if both elements of the lowest degree `max |m| mb` are above the threshold the sum is complete. -/
theorem C16_complete {ovf : Res ℤ} {v : ℤ} (hovf : ovf = ok v) {lmax npsi : ℕ} {pol : Bool} {s b : Exps}
    (h : KernelOK pol s b lmax npsi) {ths : List ℝ} {eps : ℝ} {sc : Sched} (hsc : sc.OK lmax) {m : ℤ} {mb lat : ℕ}
    (hm : |m| ≤ lmax) (hmb : mb < npsi) (hlat : lat < ths.length)
    (hbig : tau lmax eps < |wignerD (max m.natAbs mb) mb m (genAngle (ths.getD lat 0))| ∧
      tau lmax eps < |wignerD (max m.natAbs mb) mb (-m) (genAngle (ths.getD lat 0))|) :
    ∃ C1 C2, accumulate ovf sc pol s b lmax npsi ths eps = ok (C1, C2) ∧
      C1.val (m + lmax).toNat mb lat =
        ∑ l ∈ Icc (max m.natAbs mb) lmax, kterm pol s b l m mb (genAngle (ths.getD lat 0)) := by
  obtain ⟨C1, C2, e, e1, _⟩ := accumulate_complete hovf h hsc hm hmb hlat hbig
  exact ⟨C1, C2, e, e1⟩

/-- C40, the part that holds: a degree for which *both* elements `d^l_{mb,±m}` are above the threshold is included. -/
theorem C40_included_partial {F : ℤ → ℕ → ℕ → ℕ} {lmax npsi : ℕ} {ths : List ℝ} {eps : ℝ} (hF : FirstOK F lmax npsi ths eps)
    {m : ℤ} {mb lat : ℕ} (hm : |m| ≤ lmax) (hmb : mb < npsi) (hlat : lat < ths.length) {l : ℕ} (h1 : mb ≤ l) (h2 : m.natAbs ≤ l)
    (hl : l ≤ lmax) (b1 : tau lmax eps < |wignerD l mb m (genAngle (ths.getD lat 0))|)
    (b2 : tau lmax eps < |wignerD l mb (-m) (genAngle (ths.getD lat 0))|) :
    l ∈ Ico (F m mb lat) (lmax + 1) := by
  rw [mem_Ico]
  refine ⟨?_, by omega⟩
  by_contra hlt
  rcases hF.dropped m mb lat hm hmb hlat l h1 h2 (by omega) hl with d | d
  · exact absurd b1 (not_lt.mpr d)
  · exact absurd b2 (not_lt.mpr d)

theorem wignerD_diag_small {m : ℕ} (hm : 1 ≤ m) {ε : ℝ} (h0 : 0 ≤ ε) (h1 : ε ≤ 1) :
    |wignerD m m (-m) ε| ≤ (ε / 2) ^ (2 * m) := by
  rw [wignerD_right_bot m (by simp)]
  have e1 : ((m : ℤ) + m).toNat = 2 * m := by omega
  have e2 : ((m : ℤ) - m).toNat = 0 := by omega
  rw [e1, e2, Nat.choose_self]
  have hs0 : 0 ≤ Real.sin (ε / 2) := Real.sin_nonneg_of_nonneg_of_le_pi (by linarith) (by have := Real.pi_gt_three; linarith)
  have hs1 : Real.sin (ε / 2) ≤ ε / 2 := Real.sin_le (by linarith)
  rw [abs_mul, abs_mul, abs_mul, abs_pow, abs_pow]
  simp only [abs_neg, abs_one, one_pow, Nat.cast_one, Real.sqrt_one, pow_zero, mul_one, one_mul]
  rw [abs_pow, abs_of_nonneg hs0]
  exact pow_le_pow_left₀ hs0 hs1 _

theorem wignerD_diag_large {m : ℕ} {ε : ℝ} (h0 : 0 ≤ ε) (h1 : ε ≤ 1) :
    1 - m * ε ^ 2 ≤ wignerD m m m ε := by
  rw [wignerD_right_top m (by simp)]
  have e1 : ((m : ℤ) + m).toNat = 2 * m := by omega
  have e2 : ((m : ℤ) - m).toNat = 0 := by omega
  rw [e1, e2, Nat.choose_self]
  simp only [Nat.cast_one, Real.sqrt_one, pow_zero, mul_one, one_mul]
  have hc : 1 - (ε / 2) ^ 2 / 2 ≤ Real.cos (ε / 2) := Real.one_sub_sq_div_two_le_cos
  have hb := one_add_mul_le_pow (a := Real.cos (ε / 2) - 1) (by have := Real.neg_one_le_cos (ε / 2); linarith) (2 * m)
  have hm0 : (0:ℝ) ≤ m := Nat.cast_nonneg _
  calc 1 - m * ε ^ 2 ≤ 1 + ((2 * m : ℕ) : ℝ) * (Real.cos (ε / 2) - 1) := by push_cast; nlinarith [sq_nonneg ε]
    _ ≤ _ := by rw [add_sub_cancel] at hb; exact hb

/-- C40, refuted as stated: on the ring at the north pole (with the library's threshold `1e-30`), for every order
`1 ≤ m < lmax`, the degree `l = m` is left out of the coefficient for sky order `m` and beam order `m`, although its Wigner
element exceeds `1 - 1e-20`.  (`firstl` is the larger of the first degrees for `m` and `-m`.) -/
theorem C40_large_element_dropped {ovf : Res ℤ} {v : ℤ} (hovf : ovf = ok v) {lmax npsi : ℕ} {pol : Bool} {s b : Exps}
    (h : KernelOK pol s b lmax npsi) {ths : List ℝ} {sc : Sched} (hsc : sc.OK lmax) {m lat : ℕ} (h1 : 1 ≤ m) (hm : m < lmax)
    (hmb : m < npsi) (hlat : lat < ths.length) (hpole : ths.getD lat 0 = 0) :
    1 - 1 / 10 ^ 20 < wignerD m m m (genAngle (ths.getD lat 0)) ∧
    ∃ C1 C2, accumulate ovf sc pol s b lmax npsi ths (1 / 10 ^ 30) = ok (C1, C2) ∧
      ∃ F, m < F ∧ C1.val ((m : ℤ) + lmax).toNat m lat = ∑ l ∈ Ico F (lmax + 1), kterm pol s b l m m (genAngle (ths.getD lat 0)) := by
  have hg : genAngle (ths.getD lat 0) = 1 / 10 ^ 16 := by rw [hpole]; exact genAngle_poles.1
  have hmL : (m : ℝ) ≤ 46341 := by exact_mod_cast (by have := h.lt; omega)
  constructor
  · rw [hg]
    have := wignerD_diag_large (m := m) (ε := 1 / 10 ^ 16) (by positivity) (by norm_num)
    have h2 : (m : ℝ) * (1 / 10 ^ 16) ^ 2 ≤ 46341 * (1 / 10 ^ 16) ^ 2 := by
      apply mul_le_mul_of_nonneg_right hmL (by positivity)
    have h3 : (46341 : ℝ) * (1 / 10 ^ 16) ^ 2 < 1 / 10 ^ 20 := by norm_num
    linarith
  · refine ⟨_, _, accumulate_ok hovf h hsc ths _, kfirst ovf lmax ths (1 / 10 ^ 30) m m lat, ?_, ?_⟩
    · have e : |(m : ℤ)| = m := abs_of_nonneg (by omega)
      obtain ⟨a1, _, _, a4, _⟩ := calc_any hovf h.pos h.lt (ths := ths) (eps := 1 / 10 ^ 30) (m1 := m) (m2 := -(m : ℤ))
        (by rw [e]; omega) (by rw [abs_neg, e]; omega) hlat
      rw [abs_neg, max_self, e] at a1
      have hth : ths[lat] = ths.getD lat 0 := by rw [List.getD_eq_getElem?_getD, List.getElem?_eq_getElem hlat]; rfl
      rw [hth, hg] at a4
      refine lt_of_lt_of_le ?_ (le_max_right _ _)
      by_contra hge
      have hf : firstDeg ovf lmax ths (1 / 10 ^ 30) m (-(m : ℤ)) lat = m := by
        have : m ≤ firstDeg ovf lmax ths (1 / 10 ^ 30) m (-(m : ℤ)) lat := by exact_mod_cast a1
        omega
      rw [hf] at a4
      have b := a4 hm
      have c := wignerD_diag_small h1 (ε := 1 / 10 ^ 16) (by positivity) (by norm_num)
      have d : ((1 : ℝ) / 10 ^ 16 / 2) ^ (2 * m) ≤ (1 / 10 ^ 16 / 2) ^ 2 :=
        pow_le_pow_of_le_one (by positivity) (by norm_num) (by omega)
      have e2 : ((1 : ℝ) / 10 ^ 16 / 2) ^ 2 < 1 / 10 ^ 30 := by norm_num
      linarith
    · show 0 + dall ovf pol s b lmax npsi ths _ id _ _ _ = _
      rw [zero_add, dall_apply (M := (m : ℤ)) (by rw [abs_of_nonneg (by omega)]; omega) hmb hlat]
      simp

/-- C40, refuted far from the poles: on every ring whose angle `ϑ` in `[0, π]` has `sin(ϑ/2)^(2m) ≤ 1e-30`, `1 ≤ m < lmax`, the degree
`l = m` is left out of the coefficient for sky order `m` and beam order `m`, although its Wigner element is `cos(ϑ/2)^(2m)`. -/
theorem C40_dropped_on_rings {ovf : Res ℤ} {v : ℤ} (hovf : ovf = ok v) {lmax npsi : ℕ} {pol : Bool} {s b : Exps}
    (h : KernelOK pol s b lmax npsi) {ths : List ℝ} {sc : Sched} (hsc : sc.OK lmax) {m lat : ℕ} (hm : m < lmax)
    (hmb : m < npsi) (hlat : lat < ths.length) (h0 : 0 ≤ genAngle (ths.getD lat 0)) (hpi : genAngle (ths.getD lat 0) ≤ Real.pi)
    (hsmall : Real.sin (genAngle (ths.getD lat 0) / 2) ^ (2 * m) ≤ 1 / 10 ^ 30) :
    wignerD m m m (genAngle (ths.getD lat 0)) = Real.cos (genAngle (ths.getD lat 0) / 2) ^ (2 * m) ∧
    ∃ C1 C2, accumulate ovf sc pol s b lmax npsi ths (1 / 10 ^ 30) = ok (C1, C2) ∧
      ∃ F, m < F ∧ C1.val ((m : ℤ) + lmax).toNat m lat = ∑ l ∈ Ico F (lmax + 1), kterm pol s b l m m (genAngle (ths.getD lat 0)) := by
  have e1 : ((m : ℤ) + m).toNat = 2 * m := by omega
  have e2 : ((m : ℤ) - m).toNat = 0 := by omega
  refine ⟨?_, _, _, accumulate_ok hovf h hsc ths _, kfirst ovf lmax ths (1 / 10 ^ 30) m m lat, ?_, ?_⟩
  · rw [wignerD_right_top m (by simp), e1, e2, Nat.choose_self]
    simp
  · have e : |(m : ℤ)| = m := abs_of_nonneg (by omega)
    obtain ⟨a1, _, _, a4, _⟩ := calc_any hovf h.pos h.lt (ths := ths) (eps := 1 / 10 ^ 30) (m1 := m) (m2 := -(m : ℤ))
      (by rw [e]; omega) (by rw [abs_neg, e]; omega) hlat
    rw [abs_neg, max_self, e] at a1
    have hth : ths[lat] = ths.getD lat 0 := by rw [List.getD_eq_getElem?_getD, List.getElem?_eq_getElem hlat]; rfl
    rw [hth] at a4
    refine lt_of_lt_of_le ?_ (le_max_right _ _)
    by_contra hge
    have hf : firstDeg ovf lmax ths (1 / 10 ^ 30) m (-(m : ℤ)) lat = m := by
      have : m ≤ firstDeg ovf lmax ths (1 / 10 ^ 30) m (-(m : ℤ)) lat := by exact_mod_cast a1
      omega
    rw [hf] at a4
    have b := a4 hm
    have hs0 : 0 ≤ Real.sin (genAngle (ths.getD lat 0) / 2) :=
      Real.sin_nonneg_of_nonneg_of_le_pi (by linarith) (by have := Real.pi_gt_three; linarith)
    have c : |wignerD m m (-m) (genAngle (ths.getD lat 0))| = Real.sin (genAngle (ths.getD lat 0) / 2) ^ (2 * m) := by
      rw [wignerD_right_bot m (by simp), e1, e2, Nat.choose_self, abs_mul, abs_mul, abs_mul, abs_pow, abs_pow]
      simp only [abs_neg, abs_one, one_pow, Nat.cast_one, Real.sqrt_one, pow_zero, mul_one, one_mul]
      rw [abs_pow, abs_of_nonneg hs0]
    linarith
  · show 0 + dall ovf pol s b lmax npsi ths _ id _ _ _ = _
    rw [zero_add, dall_apply (M := (m : ℤ)) (by rw [abs_of_nonneg (by omega)]; omega) hmb hlat]
    simp

/-- C40: the ring one third of a radian (19°) from the pole, `m = 20`: an element above 0.4 is dropped. -/
theorem C40_dropped_19_degrees {ovf : Res ℤ} {v : ℤ} (hovf : ovf = ok v) {lmax npsi : ℕ} {pol : Bool} {s b : Exps}
    (h : KernelOK pol s b lmax npsi) {ths : List ℝ} {sc : Sched} (hsc : sc.OK lmax) {lat : ℕ} (hm : 20 < lmax)
    (hmb : 20 < npsi) (hlat : lat < ths.length) (hth : ths.getD lat 0 = 1 / 3) :
    2 / 5 < wignerD 20 20 20 (1 / 3) ∧
    ∃ C1 C2, accumulate ovf sc pol s b lmax npsi ths (1 / 10 ^ 30) = ok (C1, C2) ∧
      ∃ F, 20 < F ∧ C1.val (20 + (lmax : ℤ)).toNat 20 lat = ∑ l ∈ Ico F (lmax + 1), kterm pol s b l 20 20 (1 / 3) := by
  have hpi := Real.pi_gt_three
  have hg : genAngle (ths.getD lat 0) = 1 / 3 := by
    rw [hth]
    exact (genAngle_eq (by norm_num) (by norm_num; linarith)).1
  have hs0 : 0 ≤ Real.sin (1 / 3 / 2) := Real.sin_nonneg_of_nonneg_of_le_pi (by norm_num) (by linarith)
  have hs1 : Real.sin (1 / 3 / 2) ≤ 1 / 3 / 2 := Real.sin_le (by norm_num)
  have key := C40_dropped_on_rings hovf h hsc hm hmb hlat (by rw [hg]; norm_num) (by rw [hg]; linarith) (by
    rw [hg]
    exact (pow_le_pow_left₀ hs0 hs1 _).trans (by norm_num))
  rw [hg] at key
  refine ⟨?_, key.2⟩
  have e : wignerD 20 20 20 (1 / 3) = Real.cos (1 / 3 / 2) ^ (2 * 20) := by exact_mod_cast key.1
  rw [e]
  have hc : 1 - (1 / 3 / 2) ^ 2 / 2 ≤ Real.cos (1 / 3 / 2) := Real.one_sub_sq_div_two_le_cos
  exact lt_of_lt_of_le (by norm_num) (pow_le_pow_left₀ (by norm_num) hc _)

/-! ## bilinearity -/

theorem coefZ_lin {x y z : Harm.Alm ℂ} {p q : ℝ} {l : ℕ} {m : ℤ}
    (h : coef z l m.natAbs = p * coef x l m.natAbs + q * coef y l m.natAbs) :
    coefZ z l m = p * coefZ x l m + q * coefZ y l m := by
  unfold coefZ
  split
  · exact h
  · rw [h]
    simp only [map_add, map_mul, Complex.conj_ofReal]
    ring

/-- `z = p x + q y`, coefficient by coefficient up to degree `lmax` and order `mmax`, for the temperature and, if used, gradient
and curl.  The objects may store more, and may have different limits. -/
def Comb (pol : Bool) (lmax mmax : ℕ) (p q : ℝ) (x y z : Exps) : Prop :=
  ∀ l m : ℕ, m ≤ l → l ≤ lmax → m ≤ mmax →
    coef z.T l m = p * coef x.T l m + q * coef y.T l m ∧
    (pol = true → coef z.G l m = p * coef x.G l m + q * coef y.G l m ∧ coef z.C l m = p * coef x.C l m + q * coef y.C l m)

theorem skyBeam_sky {p q : ℝ} {x y z : Exps} {pol : Bool} {lmax : ℕ} (h : Comb pol lmax lmax p q x y z) (b : Exps) {l : ℕ} {m : ℤ}
    (hl : l ≤ lmax) (hm : m.natAbs ≤ l) (m' : ℤ) :
    skyBeam pol z b l m m' = p * skyBeam pol x b l m m' + q * skyBeam pol y b l m m' := by
  obtain ⟨h1, h2⟩ := h l m.natAbs hm hl (by omega)
  unfold skyBeam
  rw [coefZ_lin h1]
  cases pol with
  | false => simp only [Bool.false_eq_true, if_false]; ring
  | true =>
    rw [coefZ_lin (h2 rfl).1, coefZ_lin (h2 rfl).2]
    simp only [if_true]
    ring

theorem skyBeam_beam {p q : ℝ} {x y z : Exps} {pol : Bool} {lmax mmax : ℕ} (h : Comb pol lmax mmax p q x y z) (s : Exps) {l : ℕ} (m : ℤ)
    {m' : ℤ} (hl : l ≤ lmax) (hm : m'.natAbs ≤ l) (hm2 : m'.natAbs ≤ mmax) :
    skyBeam pol s z l m m' = p * skyBeam pol s x l m m' + q * skyBeam pol s y l m m' := by
  obtain ⟨h1, h2⟩ := h l m'.natAbs hm hl hm2
  unfold skyBeam
  rw [coefZ_lin h1]
  cases pol with
  | false =>
    simp only [Bool.false_eq_true, if_false, map_add, map_mul, Complex.conj_ofReal]
    ring
  | true =>
    rw [coefZ_lin (h2 rfl).1, coefZ_lin (h2 rfl).2]
    simp only [if_true, map_add, map_mul, Complex.conj_ofReal]
    ring

theorem kterm_comb {p q : ℝ} {X Y Z : ℂ} (h : Z = p * X + q * Y) (a : ℂ) : a * Z = p * (a * X) + q * (a * Y) := by rw [h]; ring

/-- Cubes combine: `z = p x + q y` in every cell in range. -/
def CombA (p q : ℝ) (x y z : A3 ℂ) : Prop :=
  z.n1 = x.n1 ∧ z.n2 = x.n2 ∧ z.n3 = x.n3 ∧ ∀ i j k, i < z.n1 → j < z.n2 → k < z.n3 → z.val i j k = p * x.val i j k + q * y.val i j k

theorem comb_core {ovf : Res ℤ} {v : ℤ} (hovf : ovf = ok v) {lmax npsi : ℕ} (h0 : 0 < lmax) (hL : lmax < 46341)
    (hn : npsi ≤ lmax + 1) {ths : List ℝ} {eps : ℝ} {sc : Sched} (hsc : sc.OK lmax) {p q : ℝ} {polx poly polz : Bool}
    {sx sy sz bx by' bz : Exps} (hx : KernelOK polx sx bx lmax npsi) (hy : KernelOK poly sy by' lmax npsi)
    (hz : KernelOK polz sz bz lmax npsi)
    (hc : ∀ (l : ℕ) (m m' : ℤ), l ≤ lmax → m.natAbs ≤ l → m'.natAbs ≤ l → m'.natAbs < npsi →
      skyBeam polz sz bz l m m' = p * skyBeam polx sx bx l m m' + q * skyBeam poly sy by' l m m') :
    ∃ X1 X2 Y1 Y2 Z1 Z2, accumulate ovf sc polx sx bx lmax npsi ths eps = ok (X1, X2) ∧
      accumulate ovf sc poly sy by' lmax npsi ths eps = ok (Y1, Y2) ∧
      accumulate ovf sc polz sz bz lmax npsi ths eps = ok (Z1, Z2) ∧ CombA p q X1 Y1 Z1 ∧ CombA p q X2 Y2 Z2 := by
  obtain ⟨F, hF, hall⟩ := accumulate_cells hovf h0 hL hn ths eps
  obtain ⟨X1, X2, ex, ⟨dx1, dx2, dx3⟩, ⟨fx1, fx2, fx3⟩, vx⟩ := hall polx sx bx hx sc hsc
  obtain ⟨Y1, Y2, ey, ⟨dy1, dy2, dy3⟩, ⟨fy1, fy2, fy3⟩, vy⟩ := hall poly sy by' hy sc hsc
  obtain ⟨Z1, Z2, ez, ⟨dz1, dz2, dz3⟩, ⟨fz1, fz2, fz3⟩, vz⟩ := hall polz sz bz hz sc hsc
  refine ⟨X1, X2, Y1, Y2, Z1, Z2, ex, ey, ez, ⟨by omega, by omega, by omega, ?_⟩, ⟨by omega, by omega, by omega, ?_⟩⟩
  · intro i j k hi hj hk
    obtain ⟨m, hm, rfl⟩ : ∃ m : ℤ, |m| ≤ lmax ∧ i = (m + lmax).toNat := ⟨(i : ℤ) - lmax, by rw [abs_le]; omega, by omega⟩
    rw [(vx m hm j k (by omega) (by omega)).1, (vy m hm j k (by omega) (by omega)).1, (vz m hm j k (by omega) (by omega)).1,
      Finset.mul_sum, Finset.mul_sum, ← Finset.sum_add_distrib]
    refine Finset.sum_congr rfl fun l hl => kterm_comb (hc l m j ?_ ?_ ?_ ?_) _ <;> rw [mem_Ico] at hl <;>
      have := hF.lo m j k hm (by omega) (by omega) <;> simp <;> omega
  · intro i j k hi hj hk
    obtain ⟨m, hm, rfl⟩ : ∃ m : ℤ, |m| ≤ lmax ∧ i = (m + lmax).toNat := ⟨(i : ℤ) - lmax, by rw [abs_le]; omega, by omega⟩
    rw [(vx m hm j k (by omega) (by omega)).2, (vy m hm j k (by omega) (by omega)).2, (vz m hm j k (by omega) (by omega)).2,
      Finset.mul_sum, Finset.mul_sum, ← Finset.sum_add_distrib]
    refine Finset.sum_congr rfl fun l hl => kterm_comb (hc l m j ?_ ?_ ?_ ?_) _ <;> rw [mem_Ico] at hl <;>
      have := hF.lo m j k hm (by omega) (by omega) <;> simp <;> omega

/-- C20: the kernel is linear in the sky. -/
theorem C20_linear_sky {ovf : Res ℤ} {v : ℤ} (hovf : ovf = ok v) {lmax npsi : ℕ} {pol : Bool} {x y z b : Exps}
    (hx : KernelOK pol x b lmax npsi) (hy : KernelOK pol y b lmax npsi) (hz : KernelOK pol z b lmax npsi)
    {ths : List ℝ} {eps : ℝ} {sc : Sched} (hsc : sc.OK lmax) {p q : ℝ} (hc : Comb pol lmax lmax p q x y z) :
    ∃ X1 X2 Y1 Y2 Z1 Z2, accumulate ovf sc pol x b lmax npsi ths eps = ok (X1, X2) ∧
      accumulate ovf sc pol y b lmax npsi ths eps = ok (Y1, Y2) ∧
      accumulate ovf sc pol z b lmax npsi ths eps = ok (Z1, Z2) ∧ CombA p q X1 Y1 Z1 ∧ CombA p q X2 Y2 Z2 :=
  comb_core hovf hx.pos hx.lt hx.npsi_le hsc hx hy hz (fun _ _ m' h1 h2 _ _ => skyBeam_sky hc b h1 h2 m')

/-- C20: the kernel is linear in the beam. -/
theorem C20_linear_beam {ovf : Res ℤ} {v : ℤ} (hovf : ovf = ok v) {lmax npsi : ℕ} {pol : Bool} {s x y z : Exps}
    (hx : KernelOK pol s x lmax npsi) (hy : KernelOK pol s y lmax npsi) (hz : KernelOK pol s z lmax npsi)
    {ths : List ℝ} {eps : ℝ} {sc : Sched} (hsc : sc.OK lmax) {p q : ℝ} (hc : Comb pol lmax (npsi - 1) p q x y z) :
    ∃ X1 X2 Y1 Y2 Z1 Z2, accumulate ovf sc pol s x lmax npsi ths eps = ok (X1, X2) ∧
      accumulate ovf sc pol s y lmax npsi ths eps = ok (Y1, Y2) ∧
      accumulate ovf sc pol s z lmax npsi ths eps = ok (Z1, Z2) ∧ CombA p q X1 Y1 Z1 ∧ CombA p q X2 Y2 Z2 :=
  comb_core hovf hx.pos hx.lt hx.npsi_le hsc hx hy hz (fun _ m _ h1 _ h3 _ => skyBeam_beam hc s m h1 h3 (by omega))

theorem coefZ_zero {x : Harm.Alm ℂ} {l : ℕ} {m : ℤ} (h : coef x l m.natAbs = 0) : coefZ x l m = 0 := by
  unfold coefZ; split <;> simp [h]

/-- The component vanishes up to degree `lmax` and order `mmax`. -/
def Vanishes (lmax mmax : ℕ) (x : Harm.Alm ℂ) : Prop := ∀ l m : ℕ, m ≤ l → l ≤ lmax → m ≤ mmax → coef x l m = 0

theorem skyBeam_pol {s b : Exps} {lmax npsi : ℕ} (hG : Vanishes lmax lmax s.G ∨ Vanishes lmax (npsi - 1) b.G)
    (hC : Vanishes lmax lmax s.C ∨ Vanishes lmax (npsi - 1) b.C) {l : ℕ} {m m' : ℤ} (hl : l ≤ lmax) (hm : m.natAbs ≤ l)
    (hm' : m'.natAbs ≤ l) (hn : m'.natAbs < npsi) : skyBeam true s b l m m' = skyBeam false s b l m m' := by
  have key : ∀ {x y : Harm.Alm ℂ}, Vanishes lmax lmax x ∨ Vanishes lmax (npsi - 1) y →
      coefZ x l m * (starRingEnd ℂ) (coefZ y l m') = 0 := by
    rintro x y (h | h)
    · rw [coefZ_zero (h l _ hm hl (by omega))]; simp
    · rw [coefZ_zero (h l _ hm' hl (by omega))]; simp
  unfold skyBeam
  rw [if_pos rfl, key hG, key hC]; simp

/-- C20: if gradient and curl vanish in the sky or in the beam, the polarised kernel gives the intensity-only result. -/
theorem C20_polarised_eq_intensity {ovf : Res ℤ} {v : ℤ} (hovf : ovf = ok v) {lmax npsi : ℕ} {s b : Exps}
    (hp : KernelOK true s b lmax npsi) {ths : List ℝ} {eps : ℝ} {sc : Sched} (hsc : sc.OK lmax)
    (hG : Vanishes lmax lmax s.G ∨ Vanishes lmax (npsi - 1) b.G) (hC : Vanishes lmax lmax s.C ∨ Vanishes lmax (npsi - 1) b.C) :
    ∃ X1 X2 Z1 Z2, accumulate ovf sc false s b lmax npsi ths eps = ok (X1, X2) ∧
      accumulate ovf sc true s b lmax npsi ths eps = ok (Z1, Z2) ∧ CombA 1 0 X1 X1 Z1 ∧ CombA 1 0 X2 X2 Z2 := by
  have hx : KernelOK false s b lmax npsi := ⟨hp.pos, hp.lt, hp.npsi_le, hp.fT, nofun, nofun⟩
  obtain ⟨X1, X2, Y1, Y2, Z1, Z2, e1, e2, e3, e4, e5⟩ := comb_core hovf hx.pos hx.lt hx.npsi_le hsc hx hx hp (p := 1) (q := 0)
    (ths := ths) (eps := eps) (fun l m m' h1 h2 h3 h4 => by rw [skyBeam_pol hG hC h1 h2 h3 h4]; simp)
  have : ok (X1, X2) = ok (Y1, Y2) := e1.symm.trans e2
  injection this with h
  injection h with ha hb
  subst ha; subst hb
  exact ⟨X1, X2, Z1, Z2, e1, e3, e4, e5⟩

/-! ## witnesses -/

/-- An expansion with `lmax = mmax = 2` with complex coefficients. -/
noncomputable def wAlm : Harm.Alm ℂ := ⟨2, 2, [1, -2, 3, 1 + Complex.I, Complex.I, 2 - Complex.I]⟩

/-- Witness for `KernelOK` and `Sched.OK` (also with two threads running the iterations backwards). -/
example : KernelOK true ⟨wAlm, wAlm, wAlm⟩ ⟨wAlm, wAlm, wAlm⟩ 2 3 ∧
    Sched.OK ⟨fun _ => [2, 1, 0], fun _ m => m % 2⟩ 2 := by
  have hw : wAlm.WF := by
    refine ⟨?_, ?_, ?_⟩ <;> simp [wAlm, Harm.numAlms]
  have hf : Fits 2 3 wAlm wAlm := ⟨hw, by simp [wAlm], by simp [wAlm], hw, by simp [wAlm], by simp [wAlm]⟩
  exact ⟨⟨by norm_num, by norm_num, by norm_num, hf, fun _ => hf, fun _ => hf⟩, fun _ => (by decide : [2, 1, 0].Perm (List.range (2 + 1)))⟩

/-- Witness for `C40_dropped_19_degrees`: `lmax = 21`, all coefficients 1. -/
example : ∃ C1 C2, accumulate (ok 0) ⟨fun _ => List.range 22, fun _ _ => 0⟩ false ⟨⟨21, 21, List.replicate 253 1⟩, ⟨0, 0, [0]⟩, ⟨0, 0, [0]⟩⟩
    ⟨⟨21, 21, List.replicate 253 1⟩, ⟨0, 0, [0]⟩, ⟨0, 0, [0]⟩⟩ 21 22 [1 / 3] (1 / 10 ^ 30) = ok (C1, C2) ∧
    ∃ F, 20 < F ∧ C1.val (20 + ((21 : ℕ) : ℤ)).toNat 20 0 = ∑ l ∈ Ico F (21 + 1), kterm false
      ⟨⟨21, 21, List.replicate 253 1⟩, ⟨0, 0, [0]⟩, ⟨0, 0, [0]⟩⟩ ⟨⟨21, 21, List.replicate 253 1⟩, ⟨0, 0, [0]⟩, ⟨0, 0, [0]⟩⟩ l 20 20 (1 / 3) := by
  have hw : (⟨21, 21, List.replicate 253 1⟩ : Harm.Alm ℂ).WF := by
    refine ⟨by norm_num, le_rfl, ?_⟩
    show _ = ok (((List.replicate 253 (1 : ℂ)).length : ℕ) : ℤ)
    rw [List.length_replicate]
    norm_num [Harm.numAlms]
  have hf : Fits 21 22 (⟨21, 21, List.replicate 253 1⟩ : Harm.Alm ℂ) ⟨21, 21, List.replicate 253 1⟩ :=
    ⟨hw, le_rfl, le_rfl, hw, le_rfl, by norm_num⟩
  exact (C40_dropped_19_degrees (ovf := ok 0) rfl
    (⟨by norm_num, by norm_num, by norm_num, hf, (fun h => by cases h), (fun h => by cases h)⟩ : KernelOK false _ _ 21 22)
    (sc := ⟨fun _ => List.range 22, fun _ _ => 0⟩) (fun _ => List.Perm.refl _) (by norm_num) (by norm_num) (by simp) rfl).2

/-- An expansion with `lmax = mmax = 2` whose only nonzero coefficient is `(1,1)`. -/
noncomputable def wAlm11 : Harm.Alm ℂ := ⟨2, 2, [0, 0, 0, 1, 0, 0]⟩

/-- C40 as stated: the coefficient the kernel computes (with the library's accuracy `1e-30`) is the sum of the contributions of
a set of degrees that contains every degree whose Wigner element is at least the threshold. -/
def C40_Full : Prop :=
  ∀ (v : ℤ) (lmax npsi : ℕ) (pol : Bool) (s b : Exps), KernelOK pol s b lmax npsi → ∀ (ths : List ℝ) (sc : Sched), sc.OK lmax →
    ∀ (m : ℤ) (mb lat : ℕ), |m| ≤ lmax → mb < npsi → lat < ths.length → ∀ C1 C2,
    accumulate (ok v) sc pol s b lmax npsi ths (1 / 10 ^ 30) = ok (C1, C2) →
    ∃ S : Finset ℕ, (∀ l, mb ≤ l → m.natAbs ≤ l → l ≤ lmax →
        1 / 10 ^ 30 ≤ |wignerD l mb m (genAngle (ths.getD lat 0))| → l ∈ S) ∧ (∀ l ∈ S, mb ≤ l ∧ m.natAbs ≤ l ∧ l ≤ lmax) ∧
      C1.val (m + lmax).toNat mb lat = ∑ l ∈ S, kterm pol s b l m mb (genAngle (ths.getD lat 0))

theorem C40_full_refuted : ¬ C40_Full := by
  intro h
  have hw : wAlm11.WF := by
    refine ⟨?_, ?_, ?_⟩ <;> simp [wAlm11, Harm.numAlms]
  have hf : Fits 2 3 wAlm11 wAlm11 := ⟨hw, by simp [wAlm11], by simp [wAlm11], hw, by simp [wAlm11], by simp [wAlm11]⟩
  have hk : KernelOK false ⟨wAlm11, wAlm11, wAlm11⟩ ⟨wAlm11, wAlm11, wAlm11⟩ 2 3 :=
    ⟨by norm_num, by norm_num, by norm_num, hf, fun _ => hf, fun _ => hf⟩
  have hs : Sched.OK ⟨fun _ => [2, 1, 0], fun _ m => m % 2⟩ 2 := fun _ => (by decide : [2, 1, 0].Perm (List.range (2 + 1)))
  obtain ⟨hbig, C1, C2, h1, F, hF, h2⟩ := C40_large_element_dropped (ovf := ok 0) rfl hk (ths := [0]) hs (m := 1) (lat := 0)
    le_rfl (by norm_num) (by norm_num) (by simp) rfl
  obtain ⟨S, h3, h4, h5⟩ := h 0 2 3 false _ _ hk [0] _ hs 1 1 0 (by norm_num) (by norm_num) (by simp) C1 C2 h1
  have g1 : coef wAlm11 1 1 = 1 := by simp [coef, Harm.Alm.get, wAlm11, Harm.index, Harm.indexL0, rd]
  have g2 : coef wAlm11 2 1 = 0 := by simp [coef, Harm.Alm.get, wAlm11, Harm.index, Harm.indexL0, rd]
  have t2 : ∀ θ, kterm false ⟨wAlm11, wAlm11, wAlm11⟩ ⟨wAlm11, wAlm11, wAlm11⟩ 2 1 1 θ = 0 := by
    intro θ; simp [kterm, skyBeam, coefZ, g2]
  set d := wignerD 1 1 1 (genAngle (([0] : List ℝ).getD 0 0)) with hd
  have t1 : kterm false ⟨wAlm11, wAlm11, wAlm11⟩ ⟨wAlm11, wAlm11, wAlm11⟩ 1 1 1 (genAngle (([0] : List ℝ).getD 0 0)) = (d : ℂ) := by
    simp [kterm, skyBeam, coefZ, g1, hd]
  have hd0 : 1 / 2 < d := by
    have : (1 : ℝ) - 1 / 10 ^ 20 < d := hbig
    norm_num at this; linarith
  have e1 : C1.val ((1 : ℤ) + (2 : ℕ)).toNat 1 0 = 0 := by
    refine (show C1.val ((1 : ℤ) + (2 : ℕ)).toNat 1 0 = _ from h2).trans (Finset.sum_eq_zero fun l hl => ?_)
    rw [mem_Ico] at hl
    have : l = 2 := by omega
    subst this
    exact t2 _
  have hS : 1 ∈ S := h3 1 le_rfl (by decide) (by norm_num) (by
    have : (1 : ℝ) / 10 ^ 30 ≤ 1 / 2 := by norm_num
    exact this.trans (hd0.le.trans (le_abs_self _)))
  have e2 : ∑ l ∈ S, kterm false ⟨wAlm11, wAlm11, wAlm11⟩ ⟨wAlm11, wAlm11, wAlm11⟩ l 1 (1 : ℕ) (genAngle (([0] : List ℝ).getD 0 0)) = d := by
    rw [Finset.sum_eq_single 1]
    · exact_mod_cast t1
    · intro l hl hne
      have := h4 l hl
      have : l = 2 := by omega
      subst this
      exact_mod_cast t2 _
    · intro h; exact absurd hS h
  have h6 := h5
  rw [show C1.val ((1 : ℤ) + ((2 : ℕ) : ℤ)).toNat 1 0 = 0 from e1, e2] at h6
  have : d = 0 := by exact_mod_cast h6.symm
  linarith

end Verif.Num
