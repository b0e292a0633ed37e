import Verif.Num.KernelSpec
import Mathlib.Algebra.BigOperators.Fin

/-!
# The harmonic kernel: proofs
-/

namespace Verif.Num
open Verif Res Finset

/-! ## cubes -/

/-- Pointwise addition. -/
noncomputable def A3.plus (a : A3 ℂ) (d : ℕ → ℕ → ℕ → ℂ) : A3 ℂ := { a with val := fun i j k => a.val i j k + d i j k }

/-- A single cell. -/
noncomputable def cell (i j k : ℕ) (v : ℂ) : ℕ → ℕ → ℕ → ℂ := fun i' j' k' => if i' = i ∧ j' = j ∧ k' = k then v else 0

theorem A3.plus_zero (a : A3 ℂ) : a.plus 0 = a := by
  unfold A3.plus; simp

theorem A3.plus_plus (a : A3 ℂ) (d e : ℕ → ℕ → ℕ → ℂ) : (a.plus d).plus e = a.plus (d + e) := by
  unfold A3.plus; simp [add_assoc]

theorem incr_ok {a : A3 ℂ} {i j k : ℕ} (hi : i < a.n1) (hj : j < a.n2) (hk : k < a.n3) (x y : ℝ) :
    incr a i j k x y = ok (a.plus (cell i j k ⟨x, y⟩)) := by
  unfold incr upd3
  rw [if_pos ⟨by omega, by omega, by omega⟩]
  congr 1
  unfold A3.plus cell
  congr 1
  funext i' j' k'
  simp only [Int.toNat_natCast]
  split
  · apply Complex.ext <;> simp
  · simp

/-! ## signs -/

theorem xpow_nat (n : ℕ) (v : ℝ) : xpow n v = (-1) ^ n * v := by
  unfold xpow
  rcases Nat.even_or_odd n with h | h
  · rw [h.neg_one_pow, if_neg]
    · ring
    · rw [Nat.even_iff] at h; omega
  · rw [h.neg_one_pow, if_pos]
    · ring
    · rw [Nat.odd_iff] at h; omega

/-! ## coefficients -/

theorem get_coef {a : Harm.Alm ℂ} (h : a.WF) {l m : ℕ} (hm : m ≤ l) (hl : (l : ℤ) ≤ a.lmax) (hmm : (m : ℤ) ≤ a.mmax) :
    a.get l m = ok (coef a l m) := by
  obtain ⟨v, hv⟩ := Harm.Alm.get_ok h (l := l) (m := m) ⟨by omega, hmm, by omega, hl⟩
  unfold coef; rw [hv]

theorem coefZ_nat (a : Harm.Alm ℂ) (l m : ℕ) : coefZ a l m = coef a l m := by
  unfold coefZ; rw [if_pos (by omega)]; rfl

theorem coefZ_neg (a : Harm.Alm ℂ) (l : ℕ) {m : ℕ} (hm : m ≠ 0) :
    coefZ a l (-m) = (-1) ^ m * (starRingEnd ℂ) (coef a l m) := by
  unfold coefZ; rw [if_neg (by omega), Int.natAbs_neg, Int.natAbs_natCast]

theorem prods_ok {pol : Bool} {s b : Exps} {lmax npsi : ℕ} (h : KernelOK pol s b lmax npsi) {l m mb : ℕ} (hl : l ≤ lmax)
    (hm : m ≤ l) (hb : mb ≤ l) (hmb : mb < npsi) :
    ∃ p, prods pol s b l m mb = ok p ∧
      (⟨p.1 + p.2.1, p.2.2.1 - p.2.2.2⟩ : ℂ) = skyBeam pol s b l m mb ∧
      (m ≠ 0 → (⟨(-1) ^ m * (p.1 - p.2.1), -(-1) ^ m * (p.2.2.1 + p.2.2.2)⟩ : ℂ) = skyBeam pol s b l (-m) mb) := by
  have key : ∀ {x y : Harm.Alm ℂ}, Fits lmax npsi x y → x.get l m = ok (coef x l m) ∧ y.get l mb = ok (coef y l mb) := by
    intro x y hf
    have := hf.sl; have := hf.sm; have := hf.bl; have := hf.bm
    exact ⟨get_coef hf.swf hm (by omega) (by omega), get_coef hf.bwf hb (by omega) (by omega)⟩
  have hsgn : ∀ (m : ℕ), (((-1 : ℝ) ^ m : ℝ) : ℂ) = (-1 : ℂ) ^ m := by intro m; push_cast; rfl
  have hre : ∀ m : ℕ, ((-1 : ℂ) ^ m).re = (-1) ^ m ∧ ((-1 : ℂ) ^ m).im = 0 := by
    intro m; rw [← hsgn]; exact ⟨Complex.ofReal_re _, Complex.ofReal_im _⟩
  obtain ⟨t1, t2⟩ := key h.fT
  unfold prods skyBeam
  cases pol with
  | false =>
    simp only [Bool.false_eq_true, if_false]
    rw [t1, t2]
    refine ⟨_, rfl, ?_, fun hm0 => ?_⟩
    · rw [coefZ_nat, coefZ_nat]
      apply Complex.ext <;> simp <;> ring
    · rw [coefZ_neg _ _ hm0, coefZ_nat]
      apply Complex.ext <;> simp [(hre m).1, (hre m).2] <;> ring
  | true =>
    obtain ⟨g1, g2⟩ := key (h.fG rfl)
    obtain ⟨c1, c2⟩ := key (h.fC rfl)
    simp only [if_true]
    rw [t1, t2, g1, g2, c1, c2]
    refine ⟨_, rfl, ?_, fun hm0 => ?_⟩
    · simp only [coefZ_nat]
      apply Complex.ext <;> simp <;> ring
    · simp only [coefZ_neg _ _ hm0, coefZ_nat]
      apply Complex.ext <;> simp [(hre m).1, (hre m).2] <;> ring

/-! ## one term -/

/-- Contribution of degree `l` to the cube at angle `θ`. -/
noncomputable def dterm (pol : Bool) (s b : Exps) (lmax m mb lat : ℕ) (θ : ℝ) (l : ℕ) : ℕ → ℕ → ℕ → ℂ :=
  cell (lmax + m) mb lat (kterm pol s b l m mb θ) +
  if m = 0 then 0 else cell (lmax - m) mb lat (kterm pol s b l (-m) mb θ)

theorem scale_pair (e t1 t2 : ℝ) : (⟨t1 * e, t2 * e⟩ : ℂ) = (e : ℂ) * ⟨t1, t2⟩ := by
  apply Complex.ext <;> simp [mul_comm]

theorem term_ok {pol : Bool} {s b : Exps} {lmax npsi nlat : ℕ} (h : KernelOK pol s b lmax npsi) {l m mb lat : ℕ} (hl : l ≤ lmax)
    (hm : m ≤ l) (hb : mb ≤ l) (hmb : mb < npsi) (hlat : lat < nlat) {dmm dmmneg : List ℝ} {θ : ℝ}
    (r1 : rd dmm l = ok (wignerD l mb m θ)) (r2 : rd dmmneg l = ok (wignerD l mb (-m) θ)) {st : KS}
    (d1 : st.C1.n1 = 2 * lmax + 1 ∧ st.C1.n2 = npsi ∧ st.C1.n3 = nlat)
    (d2 : st.C2.n1 = 2 * lmax + 1 ∧ st.C2.n2 = npsi ∧ st.C2.n3 = nlat)
    (hd : st.dlb = -(xpow l (xpow mb 1))) :
    term pol s b lmax mb m lat (xpow m 1) (xpow m 1 * xpow mb 1) dmm dmmneg l st =
      ok ⟨xpow l (xpow mb 1), st.C1.plus (dterm pol s b lmax m mb lat θ l),
        st.C2.plus (dterm pol s b lmax m mb lat (Real.pi - θ) l)⟩ := by
  obtain ⟨p, hp, hp1, hp2⟩ := prods_ok h hl hm hb hmb
  unfold term
  rw [r1, r2, hp, hd]
  simp only [ok_bind, neg_neg]
  have hi : ((m : ℤ) + lmax) = ((lmax + m : ℕ) : ℤ) := by push_cast; ring
  have hin : (-(m : ℤ) + lmax) = ((lmax - m : ℕ) : ℤ) := by omega
  rw [hi, incr_ok (by omega) (by omega) (by omega), ok_bind, incr_ok (by omega) (by omega) (by omega), ok_bind]
  -- symmetry of the d-function
  have hbl : |(mb : ℤ)| ≤ l := by rw [abs_of_nonneg (by omega)]; omega
  have hml : |(m : ℤ)| ≤ l := by rw [abs_of_nonneg (by omega)]; omega
  have hml' : |(-m : ℤ)| ≤ l := by rw [abs_neg]; exact hml
  have s1 := wignerD_pi_sub l hbl hml θ
  have s2 := wignerD_pi_sub l hbl hml' θ
  rw [neg_neg] at s2
  rw [Int.natAbs_natCast] at s1 s2
  have sgn : ∀ k : ℕ, (((-1 : ℝ) ^ k : ℝ) : ℂ) = (-1 : ℂ) ^ k := fun k => by push_cast; rfl
  have hdl : xpow l (xpow mb 1) = (-1) ^ (l + mb) := by rw [xpow_nat, xpow_nat, pow_add]; ring
  have hdsb : xpow m 1 * xpow mb 1 = (-1) ^ (m + mb) := by rw [xpow_nat, xpow_nat, pow_add]; ring
  have hds : xpow m 1 = (-1) ^ m := by rw [xpow_nat]; ring
  have a1 : (⟨(p.1 + p.2.1) * (xpow m 1 * xpow mb 1 * wignerD l mb m θ), (p.2.2.1 - p.2.2.2) * (xpow m 1 * xpow mb 1 * wignerD l mb m θ)⟩ : ℂ)
      = kterm pol s b l m mb θ := by
    rw [scale_pair, hp1, hdsb]
    unfold kterm
    rw [Int.natAbs_natCast, Int.natAbs_natCast]
    push_cast; ring
  have a2 : (⟨(p.1 + p.2.1) * (xpow l (xpow mb 1) * (xpow m 1 * xpow mb 1 * wignerD l mb (-m) θ)),
      (p.2.2.1 - p.2.2.2) * (xpow l (xpow mb 1) * (xpow m 1 * xpow mb 1 * wignerD l mb (-m) θ))⟩ : ℂ)
      = kterm pol s b l m mb (Real.pi - θ) := by
    rw [scale_pair, hp1, hdsb, hdl]
    unfold kterm
    rw [Int.natAbs_natCast, Int.natAbs_natCast, s1]
    push_cast; ring
  rw [a1, a2]
  unfold termNeg
  by_cases hm0 : m = 0
  · rw [if_neg (by omega)]
    simp only [dterm, hm0, if_true, add_zero]
  · rw [if_pos (by omega), hin]
    dsimp only
    rw [incr_ok (by show _ < st.C1.n1; omega) (by show _ < st.C1.n2; omega) (by show _ < st.C1.n3; omega), ok_bind,
      incr_ok (by show _ < st.C2.n1; omega) (by show _ < st.C2.n2; omega) (by show _ < st.C2.n3; omega), ok_bind]
    have hp2' := hp2 hm0
    have a3 : (⟨xpow m 1 * (p.1 - p.2.1) * (xpow m 1 * xpow mb 1 * wignerD l mb (-m) θ),
        -xpow m 1 * (p.2.2.1 + p.2.2.2) * (xpow m 1 * xpow mb 1 * wignerD l mb (-m) θ)⟩ : ℂ) = kterm pol s b l (-m) mb θ := by
      rw [scale_pair, hds, hp2', ← hds, hdsb]
      unfold kterm
      rw [Int.natAbs_neg, Int.natAbs_natCast, Int.natAbs_natCast]
      push_cast; ring
    have a4 : (⟨xpow m 1 * (p.1 - p.2.1) * (xpow l (xpow mb 1) * (xpow m 1 * xpow mb 1 * wignerD l mb m θ)),
        -xpow m 1 * (p.2.2.1 + p.2.2.2) * (xpow l (xpow mb 1) * (xpow m 1 * xpow mb 1 * wignerD l mb m θ))⟩ : ℂ)
        = kterm pol s b l (-m) mb (Real.pi - θ) := by
      rw [scale_pair, hds, hp2', ← hds, hdsb, hdl]
      unfold kterm
      rw [Int.natAbs_neg, Int.natAbs_natCast, Int.natAbs_natCast, s2]
      push_cast; ring
    rw [a3, a4]
    simp only [dterm, hm0, if_false, A3.plus_plus]


/-! ## the first degree -/

/-- `firstl` reported by a fresh generator. -/
noncomputable def firstDeg (ovf : Res ℤ) (lmax : ℕ) (ths : List ℝ) (eps : ℝ) (m1 m2 : ℤ) (n : ℕ) : ℕ :=
  match (do let g ← mkGen lmax ths eps
            let g ← prepare ovf g m1 m2
            wcalc g n (List.replicate (lmax + 1) 0)) with
  | .ok r => r.1.toNat
  | _ => 0

/-- What every prepared generator returns. -/
theorem calc_any {ovf : Res ℤ} {v : ℤ} (hovf : ovf = ok v) {lmax : ℕ} (h0 : 0 < lmax) (hL : lmax < 46341)
    {ths : List ℝ} {eps : ℝ} {m1 m2 : ℤ} (h1 : |m1| ≤ lmax) (h2 : |m2| ≤ lmax) {n : ℕ} (hn : n < ths.length) :
    max |m1| |m2| ≤ firstDeg ovf lmax ths eps m1 m2 n ∧ firstDeg ovf lmax ths eps m1 m2 n ≤ lmax + 1 ∧
    (∀ l : ℕ, max |m1| |m2| ≤ l → l < firstDeg ovf lmax ths eps m1 m2 n → l ≤ lmax →
      |wignerD l m1 m2 (genAngle ths[n])| ≤ max eps (tiny lmax)) ∧
    (firstDeg ovf lmax ths eps m1 m2 n < lmax → eps < |wignerD (firstDeg ovf lmax ths eps m1 m2 n) m1 m2 (genAngle ths[n])|) ∧
    ∀ g : Gen, Tables g lmax ths eps → Prepared g m1 m2 → ∀ res : List ℝ, res.length = lmax + 1 →
      ∃ res', wcalc g n res = ok ((firstDeg ovf lmax ths eps m1 m2 n : ℤ), res') ∧ res'.length = lmax + 1 ∧
      ∀ l : ℕ, firstDeg ovf lmax ths eps m1 m2 n ≤ l → l ≤ lmax → rd res' l = ok (wignerD l m1 m2 (genAngle ths[n])) := by
  obtain ⟨g0, e0, hT0, hf0⟩ := tables_mkGen (ths := ths) (eps := eps) h0
  obtain ⟨g1, e1, hT1, hP1⟩ := prepare_ok hovf hL hT0 (Or.inl hf0) h1 h2
  obtain ⟨f, a1, a2, a3, a4, hall⟩ := wcalc_ok hT1 hP1 h1 h2 hn
  obtain ⟨r0, ew0, _⟩ := hall (res := List.replicate (lmax + 1) 0) (by simp)
  have hfd : firstDeg ovf lmax ths eps m1 m2 n = f := by
    unfold firstDeg
    rw [e0]; simp only [ok_bind]; rw [e1]; simp only [ok_bind]; rw [ew0]
    simp
  rw [hfd]
  refine ⟨a1, a2, a3, a4, fun g hT hP res hres => ?_⟩
  rw [wcalc_congr hT hT1 hP hP1]
  obtain ⟨r, e, b1, b2, _⟩ := hall hres
  exact ⟨r, e, b1, b2⟩

/-- First degree that enters the sum for `(mb, m)`. -/
noncomputable def kfirst (ovf : Res ℤ) (lmax : ℕ) (ths : List ℝ) (eps : ℝ) (mb m n : ℕ) : ℕ :=
  max (firstDeg ovf lmax ths eps mb m n) (firstDeg ovf lmax ths eps mb (-m) n)

/-! ## loops -/

/-- State of a thread that can prepare any orders. -/
structure TSOK (lmax : ℕ) (ths : List ℝ) (eps : ℝ) (t : TS) : Prop where
  T1 : Tables t.g lmax ths eps
  F1 : FreshOr t.g lmax
  T2 : Tables t.gneg lmax ths eps
  F2 : FreshOr t.gneg lmax
  b1 : t.buf.length = lmax + 1
  b2 : t.bufneg.length = lmax + 1

/-- Contribution of one (mb, m, latitude). -/
noncomputable def dring (ovf : Res ℤ) (pol : Bool) (s b : Exps) (lmax : ℕ) (ths : List ℝ) (eps : ℝ) (mb m lat : ℕ) (f : ℝ → ℝ) :
    ℕ → ℕ → ℕ → ℂ :=
  ∑ l ∈ Ico (kfirst ovf lmax ths eps mb m lat) (lmax + 1), dterm pol s b lmax m mb lat (f (genAngle (ths.getD lat 0))) l

theorem plus_dims (a : A3 ℂ) (d : ℕ → ℕ → ℕ → ℂ) : (a.plus d).n1 = a.n1 ∧ (a.plus d).n2 = a.n2 ∧ (a.plus d).n3 = a.n3 :=
  ⟨rfl, rfl, rfl⟩

theorem latBody_ok {ovf : Res ℤ} {v : ℤ} (hovf : ovf = ok v) {pol : Bool} {s b : Exps} {lmax npsi : ℕ}
    (h : KernelOK pol s b lmax npsi) {ths : List ℝ} {eps : ℝ} {mb m lat : ℕ} (hm : m ≤ lmax) (hmb : mb < npsi)
    (hlat : lat < ths.length) {t : TS} (ht : TSOK lmax ths eps t) (hp1 : Prepared t.g mb m) (hp2 : Prepared t.gneg mb (-m))
    {C1 C2 : A3 ℂ} (d1 : C1.n1 = 2 * lmax + 1 ∧ C1.n2 = npsi ∧ C1.n3 = ths.length)
    (d2 : C2.n1 = 2 * lmax + 1 ∧ C2.n2 = npsi ∧ C2.n3 = ths.length) :
    ∃ t', TSOK lmax ths eps t' ∧ t'.g = t.g ∧ t'.gneg = t.gneg ∧
      latBody pol s b lmax mb m lat (t, C1, C2) =
        ok (t', C1.plus (dring ovf pol s b lmax ths eps mb m lat id),
          C2.plus (dring ovf pol s b lmax ths eps mb m lat (Real.pi - ·))) := by
  have hnp := h.npsi_le
  have hmbl : |(mb : ℤ)| ≤ lmax := by rw [abs_of_nonneg (by omega)]; omega
  have hml : |(m : ℤ)| ≤ lmax := by rw [abs_of_nonneg (by omega)]; omega
  have hml' : |(-m : ℤ)| ≤ lmax := by rw [abs_neg]; exact hml
  obtain ⟨a1, a2, _, _, a5⟩ := calc_any hovf h.pos h.lt (eps := eps) hmbl hml hlat
  obtain ⟨c1, c2, _, _, c5⟩ := calc_any hovf h.pos h.lt (eps := eps) hmbl hml' hlat
  obtain ⟨r, er, lr, gr⟩ := a5 t.g ht.T1 hp1 t.buf ht.b1
  obtain ⟨rn, ern, lrn, grn⟩ := c5 t.gneg ht.T2 hp2 t.bufneg ht.b2
  have hth : ths[lat] = ths.getD lat 0 := by rw [List.getD_eq_getElem?_getD, List.getElem?_eq_getElem hlat]; rfl
  unfold latBody
  rw [er, ok_bind, ern, ok_bind]
  dsimp only
  set f1 := firstDeg ovf lmax ths eps mb m lat with hf1
  set f2 := firstDeg ovf lmax ths eps mb (-m) lat with hf2
  have hF : kfirst ovf lmax ths eps mb m lat = max f1 f2 := rfl
  have hmax : max (f1 : ℤ) (f2 : ℤ) = ((max f1 f2 : ℕ) : ℤ) := by push_cast; rfl
  rw [hmax]
  set F := max f1 f2 with hFd
  have hmbF : mb ≤ F := by
    have e := abs_of_nonneg (by omega : (0:ℤ) ≤ mb)
    have e1 := le_trans (le_max_left |(mb : ℤ)| |(m : ℤ)|) a1
    rw [e] at e1
    exact le_trans (by exact_mod_cast e1) (le_max_left f1 f2)
  have hmF : m ≤ F := by
    have e := abs_of_nonneg (by omega : (0:ℤ) ≤ m)
    have e1 := le_trans (le_max_right |(mb : ℤ)| |(m : ℤ)|) a1
    rw [e] at e1
    exact le_trans (by exact_mod_cast e1) (le_max_left f1 f2)
  have hFl : F ≤ lmax + 1 := max_le a2 c2
  set θ := genAngle ths[lat] with hθ
  -- the loop
  obtain ⟨st, hst, hinv⟩ := forN_inv ((lmax : ℤ) + 1 - (F : ℤ)).toNat
    (fun k st => term pol s b lmax mb m lat (xpow m 1) (xpow m 1 * xpow mb 1) r rn ((F : ℤ) + k) st)
    ⟨-(xpow F (xpow mb 1)), C1, C2⟩
    (fun k st => st = ⟨-(xpow (F + k : ℕ) (xpow mb 1)),
      C1.plus (∑ l ∈ Ico F (F + k), dterm pol s b lmax m mb lat θ l),
      C2.plus (∑ l ∈ Ico F (F + k), dterm pol s b lmax m mb lat (Real.pi - θ) l)⟩)
    (by simp [A3.plus_zero])
    (fun k st hk hs => by
      have hl : F + k ≤ lmax := by omega
      have hb1 := le_max_left f1 f2
      have hb2 := le_max_right f1 f2
      refine ⟨_, ?_, rfl⟩
      rw [show ((F : ℤ) + (k : ℤ)) = ((F + k : ℕ) : ℤ) by push_cast; rfl]
      rw [term_ok h hl (by omega) (by omega) hmb hlat (gr (F + k) (by omega) hl) (grn (F + k) (by omega) hl)
        (st := st) (by rw [hs]; exact d1) (by rw [hs]; exact d2) (by rw [hs])]
      rw [hs]
      congr 1
      rw [show F + (k + 1) = (F + k) + 1 by ring, Finset.sum_Ico_succ_top (by omega), Finset.sum_Ico_succ_top (by omega),
        A3.plus_plus, A3.plus_plus]
      congr 1
      simp only [xpow_nat, pow_succ]; ring)
  rw [hst, ok_bind, hinv]
  refine ⟨{ t with buf := r, bufneg := rn }, ⟨ht.T1, ht.F1, ht.T2, ht.F2, lr, lrn⟩, rfl, rfl, ?_⟩
  have e : F + ((lmax : ℤ) + 1 - (F : ℤ)).toNat = lmax + 1 := by omega
  rw [e]
  unfold dring
  rw [hF, ← hth, ← hθ]
  rfl

theorem mskyBody_ok {ovf : Res ℤ} {v : ℤ} (hovf : ovf = ok v) {pol : Bool} {s b : Exps} {lmax npsi : ℕ}
    (h : KernelOK pol s b lmax npsi) {ths : List ℝ} {eps : ℝ} {mb m : ℕ} (hm : m ≤ lmax) (hmb : mb < npsi)
    {t : TS} (ht : TSOK lmax ths eps t) {C1 C2 : A3 ℂ} (d1 : C1.n1 = 2 * lmax + 1 ∧ C1.n2 = npsi ∧ C1.n3 = ths.length)
    (d2 : C2.n1 = 2 * lmax + 1 ∧ C2.n2 = npsi ∧ C2.n3 = ths.length) :
    ∃ t', TSOK lmax ths eps t' ∧
      mskyBody ovf pol s b lmax ths.length mb m (t, C1, C2) =
        ok (t', C1.plus (∑ lat ∈ range ths.length, dring ovf pol s b lmax ths eps mb m lat id),
          C2.plus (∑ lat ∈ range ths.length, dring ovf pol s b lmax ths eps mb m lat (Real.pi - ·))) := by
  have hnp := h.npsi_le
  have hmbl : |(mb : ℤ)| ≤ lmax := by rw [abs_of_nonneg (by omega)]; omega
  have hml : |(m : ℤ)| ≤ lmax := by rw [abs_of_nonneg (by omega)]; omega
  have hml' : |(-m : ℤ)| ≤ lmax := by rw [abs_neg]; exact hml
  obtain ⟨g, eg, hT, hP⟩ := prepare_ok hovf h.lt ht.T1 ht.F1 hmbl hml
  obtain ⟨gn, egn, hTn, hPn⟩ := prepare_ok hovf h.lt ht.T2 ht.F2 hmbl hml'
  unfold mskyBody
  dsimp only
  rw [eg, ok_bind, egn, ok_bind]
  obtain ⟨q, hq, t', ht', hg', hgn', hqe⟩ := forN_inv ths.length (fun lat q => latBody pol s b lmax mb m lat q)
    ({ t with g := g, gneg := gn }, C1, C2)
    (fun n q => ∃ t', TSOK lmax ths eps t' ∧ t'.g = g ∧ t'.gneg = gn ∧
      q = (t', C1.plus (∑ lat ∈ range n, dring ovf pol s b lmax ths eps mb m lat id),
          C2.plus (∑ lat ∈ range n, dring ovf pol s b lmax ths eps mb m lat (Real.pi - ·))))
    ⟨{ t with g := g, gneg := gn }, ⟨hT, Or.inr ⟨_, _, hmbl, hml, hP⟩, hTn, Or.inr ⟨_, _, hmbl, hml', hPn⟩, ht.b1, ht.b2⟩,
      rfl, rfl, by simp [A3.plus_zero]⟩
    (fun lat q hlat ⟨t1, k1, k2, k3, k4⟩ => by
      obtain ⟨t2, j1, j2, j3, j4⟩ := latBody_ok hovf h hm hmb hlat k1 (by rw [k2]; exact hP) (by rw [k3]; exact hPn)
        (C1 := C1.plus (∑ lat ∈ range lat, dring ovf pol s b lmax ths eps mb m lat id))
        (C2 := C2.plus (∑ lat ∈ range lat, dring ovf pol s b lmax ths eps mb m lat (Real.pi - ·))) d1 d2
      refine ⟨_, ?_, t2, j1, j2.trans k2, j3.trans k3, rfl⟩
      rw [k4, j4, A3.plus_plus, A3.plus_plus, Finset.sum_range_succ, Finset.sum_range_succ])
  exact ⟨t', ht', by rw [hq, hqe]⟩

/-- Invariant of the parallel region. -/
structure PSOK (lmax npsi : ℕ) (ths : List ℝ) (eps : ℝ) (st : PS) : Prop where
  thr : ∀ i, TSOK lmax ths eps (st.thr i)
  d1 : st.C1.n1 = 2 * lmax + 1 ∧ st.C1.n2 = npsi ∧ st.C1.n3 = ths.length
  d2 : st.C2.n1 = 2 * lmax + 1 ∧ st.C2.n2 = npsi ∧ st.C2.n3 = ths.length

theorem forL_cons {β σ : Type} (x : β) (xs : List β) (f : β → σ → Res σ) (s : σ) :
    forL (x :: xs) f s = (f x s >>= fun t => forL xs f t) := rfl

/-- Generic accumulation over a list of iterations. -/
theorem forL_accum {lmax npsi : ℕ} {ths : List ℝ} {eps : ℝ} {f : ℕ → PS → Res PS} {e1 e2 : ℕ → ℕ → ℕ → ℕ → ℂ} :
    ∀ (xs : List ℕ), (∀ x ∈ xs, ∀ st, PSOK lmax npsi ths eps st → ∃ st', f x st = ok st' ∧ PSOK lmax npsi ths eps st' ∧
      st'.C1 = st.C1.plus (e1 x) ∧ st'.C2 = st.C2.plus (e2 x)) →
    ∀ st, PSOK lmax npsi ths eps st → ∃ st', forL xs f st = ok st' ∧ PSOK lmax npsi ths eps st' ∧
      st'.C1 = st.C1.plus ((xs.map e1).sum) ∧ st'.C2 = st.C2.plus ((xs.map e2).sum) := by
  intro xs
  induction xs with
  | nil => intro _ st hst; exact ⟨st, rfl, hst, by simp [A3.plus_zero], by simp [A3.plus_zero]⟩
  | cons x xs ih =>
    intro hf st hst
    obtain ⟨st1, k1, k2, k3, k4⟩ := hf x (by simp) st hst
    obtain ⟨st2, j1, j2, j3, j4⟩ := ih (fun y hy => hf y (by simp [hy])) st1 k2
    refine ⟨st2, ?_, j2, ?_, ?_⟩
    · rw [forL_cons, k1, ok_bind, j1]
    · rw [j3, k3, A3.plus_plus]; simp
    · rw [j4, k4, A3.plus_plus]; simp

/-- Sum of all contributions. -/
noncomputable def dall (ovf : Res ℤ) (pol : Bool) (s b : Exps) (lmax npsi : ℕ) (ths : List ℝ) (eps : ℝ) (f : ℝ → ℝ) :
    ℕ → ℕ → ℕ → ℂ :=
  ∑ mb ∈ range npsi, ∑ m ∈ range (lmax + 1), ∑ lat ∈ range ths.length, dring ovf pol s b lmax ths eps mb m lat f

theorem perm_sum {xs : List ℕ} {n : ℕ} (h : xs.Perm (List.range n)) {M : Type} [AddCommMonoid M] (e : ℕ → M) :
    (xs.map e).sum = ∑ m ∈ range n, e m := by
  rw [(h.map e).sum_eq]; rfl

theorem accumulate_ok {ovf : Res ℤ} {v : ℤ} (hovf : ovf = ok v) {pol : Bool} {s b : Exps} {lmax npsi : ℕ}
    (h : KernelOK pol s b lmax npsi) {sc : Sched} (hsc : sc.OK lmax) (ths : List ℝ) (eps : ℝ) :
    accumulate ovf sc pol s b lmax npsi ths eps =
      ok ((zero3 (2 * lmax + 1) npsi ths.length).plus (dall ovf pol s b lmax npsi ths eps id),
          (zero3 (2 * lmax + 1) npsi ths.length).plus (dall ovf pol s b lmax npsi ths eps (Real.pi - ·))) := by
  obtain ⟨g, eg, hT, hf⟩ := tables_mkGen (ths := ths) (eps := eps) h.pos
  unfold accumulate
  rw [eg, ok_bind]
  dsimp only
  obtain ⟨st, e, _, e1, e2⟩ := forL_accum (lmax := lmax) (npsi := npsi) (ths := ths) (eps := eps)
    (f := fun mbeam st => forL (sc.order mbeam) (fun msky (st : PS) => do
      let q ← mskyBody ovf pol s b lmax ths.length mbeam msky (st.thr (sc.thread mbeam msky), st.C1, st.C2)
      ok ⟨Function.update st.thr (sc.thread mbeam msky) q.1, q.2.1, q.2.2⟩) st)
    (e1 := fun mb => ∑ m ∈ range (lmax + 1), ∑ lat ∈ range ths.length, dring ovf pol s b lmax ths eps mb m lat id)
    (e2 := fun mb => ∑ m ∈ range (lmax + 1), ∑ lat ∈ range ths.length, dring ovf pol s b lmax ths eps mb m lat (Real.pi - ·))
    (List.range npsi)
    (fun mb hmb st hst => by
      have hmb' : mb < npsi := List.mem_range.mp hmb
      obtain ⟨st', k1, k2, k3, k4⟩ := forL_accum (lmax := lmax) (npsi := npsi) (ths := ths) (eps := eps)
        (f := fun msky (st : PS) => do
          let q ← mskyBody ovf pol s b lmax ths.length mb msky (st.thr (sc.thread mb msky), st.C1, st.C2)
          ok ⟨Function.update st.thr (sc.thread mb msky) q.1, q.2.1, q.2.2⟩)
        (e1 := fun m => ∑ lat ∈ range ths.length, dring ovf pol s b lmax ths eps mb m lat id)
        (e2 := fun m => ∑ lat ∈ range ths.length, dring ovf pol s b lmax ths eps mb m lat (Real.pi - ·))
        (sc.order mb)
        (fun m hm st hst => by
          have hm' : m ≤ lmax := by
            have := (hsc mb).mem_iff.mp hm
            rw [List.mem_range] at this; omega
          obtain ⟨t', ht', et⟩ := mskyBody_ok hovf h hm' hmb' (hst.thr (sc.thread mb m)) hst.d1 hst.d2
          refine ⟨⟨Function.update st.thr (sc.thread mb m) t',
            st.C1.plus (∑ lat ∈ range ths.length, dring ovf pol s b lmax ths eps mb m lat id),
            st.C2.plus (∑ lat ∈ range ths.length, dring ovf pol s b lmax ths eps mb m lat (Real.pi - ·))⟩,
            by rw [et, ok_bind], ⟨fun i => ?_, hst.d1, hst.d2⟩, rfl, rfl⟩
          by_cases hi : i = sc.thread mb m
          · subst hi; simp only [Function.update_self]; exact ht'
          · simp only [Function.update_of_ne hi]; exact hst.thr i) st hst
      refine ⟨st', k1, k2, ?_, ?_⟩
      · rw [k3, perm_sum (hsc mb)]
      · rw [k4, perm_sum (hsc mb)])
    (PS.mk (fun _ => ⟨g, g, List.replicate (lmax + 1) 0, List.replicate (lmax + 1) 0⟩) (zero3 (2 * lmax + 1) npsi ths.length)
      (zero3 (2 * lmax + 1) npsi ths.length))
    ⟨fun _ => ⟨hT, Or.inl hf, hT, Or.inl hf, by simp, by simp⟩, ⟨rfl, rfl, rfl⟩, ⟨rfl, rfl, rfl⟩⟩
  rw [e, ok_bind, e1, e2, perm_sum (List.Perm.refl _), perm_sum (List.Perm.refl _)]
  rfl

/-! ## extraction of one cell -/

theorem sum3_apply {ι : Type} (S : Finset ι) (f : ι → ℕ → ℕ → ℕ → ℂ) (i j k : ℕ) : (∑ x ∈ S, f x) i j k = ∑ x ∈ S, f x i j k := by
  simp [Finset.sum_apply]

/-- A term contributes to the cells `(lmax ± m, mb, lat)` only. -/
theorem dterm_apply {pol : Bool} {s b : Exps} {lmax m mb lat : ℕ} (hm : m ≤ lmax) {θ : ℝ} {l : ℕ} {M : ℤ} (hM : |M| ≤ lmax)
    {mb' lat' : ℕ} : dterm pol s b lmax m mb lat θ l (M + lmax).toNat mb' lat' =
      if m = M.natAbs ∧ mb = mb' ∧ lat = lat' then kterm pol s b l M mb θ else 0 := by
  obtain ⟨h1, h2⟩ := abs_le.mp hM
  unfold dterm cell
  simp only [Pi.add_apply]
  by_cases hc : m = M.natAbs ∧ mb = mb' ∧ lat = lat'
  · obtain ⟨rfl, rfl, rfl⟩ := hc
    simp only [and_self, and_true, if_true]
    by_cases hs : 0 ≤ M
    · rw [if_pos (by omega)]
      have : ((M.natAbs : ℕ) : ℤ) = M := by omega
      rw [this]
      by_cases h0 : M.natAbs = 0
      · rw [if_pos h0]; simp
      · rw [if_neg h0, if_neg (by omega)]; simp
    · rw [if_neg (by omega), if_neg (by omega : ¬ M.natAbs = 0)]
      simp only [and_self, and_true]
      rw [if_pos (by omega)]
      have : -((M.natAbs : ℕ) : ℤ) = M := by omega
      rw [this, zero_add]
  · rw [if_neg hc, if_neg (by omega)]
    by_cases h0 : m = 0
    · rw [if_pos h0]; simp
    · rw [if_neg h0]
      simp only [zero_add]
      rw [if_neg (by omega)]

theorem dall_apply {ovf : Res ℤ} {pol : Bool} {s b : Exps} {lmax npsi : ℕ} {ths : List ℝ} {eps : ℝ} {f : ℝ → ℝ} {M : ℤ}
    (hM : |M| ≤ lmax) {mb lat : ℕ} (hmb : mb < npsi) (hlat : lat < ths.length) :
    dall ovf pol s b lmax npsi ths eps f (M + lmax).toNat mb lat =
      ∑ l ∈ Ico (kfirst ovf lmax ths eps mb M.natAbs lat) (lmax + 1), kterm pol s b l M mb (f (genAngle (ths.getD lat 0))) := by
  obtain ⟨h1, h2⟩ := abs_le.mp hM
  have hdr : ∀ mb' m' lat' : ℕ, m' ≤ lmax → dring ovf pol s b lmax ths eps mb' m' lat' f (M + lmax).toNat mb lat =
      if m' = M.natAbs ∧ mb' = mb ∧ lat' = lat then
        ∑ l ∈ Ico (kfirst ovf lmax ths eps mb' m' lat') (lmax + 1), kterm pol s b l M mb (f (genAngle (ths.getD lat' 0))) else 0 := by
    intro mb' m' lat' hm'
    unfold dring
    rw [sum3_apply]
    simp only [dterm_apply hm' hM]
    by_cases hc : m' = M.natAbs ∧ mb' = mb ∧ lat' = lat
    · simp only [if_pos hc]
      exact Finset.sum_congr rfl (fun l _ => by rw [hc.2.1])
    · simp only [if_neg hc, Finset.sum_const_zero]
  unfold dall
  rw [sum3_apply, Finset.sum_eq_single mb]
  · rw [sum3_apply, Finset.sum_eq_single M.natAbs]
    · rw [sum3_apply, Finset.sum_eq_single lat]
      · rw [hdr _ _ _ (by omega), if_pos ⟨rfl, rfl, rfl⟩]
      · intro x _ hx
        rw [hdr _ _ _ (by omega), if_neg (by tauto)]
      · intro hx; exact absurd (Finset.mem_range.mpr hlat) hx
    · intro x hx hne
      rw [sum3_apply]
      apply Finset.sum_eq_zero
      intro y _
      rw [hdr _ _ _ (by have := Finset.mem_range.mp hx; omega), if_neg (by tauto)]
    · intro hx; exact absurd (Finset.mem_range.mpr (by omega)) hx
  · intro x _ hne
    rw [sum3_apply]
    apply Finset.sum_eq_zero
    intro y hy
    rw [sum3_apply]
    apply Finset.sum_eq_zero
    intro z _
    rw [hdr _ _ _ (by have := Finset.mem_range.mp hy; omega), if_neg (by tauto)]
  · intro hx; exact absurd (Finset.mem_range.mpr hmb) hx

end Verif.Num
