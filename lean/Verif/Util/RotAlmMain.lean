import Verif.Util.RotAlm
import Mathlib.Analysis.SpecialFunctions.Trigonometric.Basic

/-!
# Rotation of spherical harmonic coefficients (C47): theorems
-/

namespace Verif.Risbo

open Verif Res Verif.Num Verif.Harm Verif.PowSpec Verif.Share Verif.Fft

/-! ## Specification -/

/-- The coefficients of a real field for all `m`: `a_{l,-m} = (-1)^m conj(a_{lm})`. -/
noncomputable def full (a : ℤ → ℤ → ℂ) (l m : ℤ) : ℂ :=
  if 0 ≤ m then a l m else (-1) ^ m.natAbs * (starRingEnd ℂ) (a l (-m))

/-- The rotated coefficients: `e^{-imφ} Σ_{m'=-l}^{l} d^l_{mm'}(θ) e^{-im'ψ} a_{lm'}`. -/
noncomputable def rotated (a : ℤ → ℤ → ℂ) (psi theta phi : ℝ) (l : ℕ) (m : ℤ) : ℂ :=
  Complex.exp (-(Complex.I * m * phi)) * ∑ i ∈ Finset.range (2 * l + 1),
    (wignerD l m ((i : ℤ) - l) theta : ℂ) * Complex.exp (-(Complex.I * ((i : ℤ) - l : ℤ) * psi)) * full a l ((i : ℤ) - l)

/-! ## One degree -/

/-- What the body adds to `almtmp[m]`. -/
noncomputable def term (a : ℤ → ℤ → ℂ) (psi theta : ℝ) (l : ℕ) (m : ℤ) (mm : ℕ) : ℂ :=
  let t1 := a l mm * (⟨Real.cos (psi * mm), -Real.sin (psi * mm)⟩ : ℂ)
  let d1 := (-1) ^ (mm + m.natAbs) * wignerD l mm m theta
  let d2 := (-1) ^ mm * wignerD l mm (-m) theta
  ⟨t1.re * (d1 + d2), t1.im * (d1 - d2)⟩

theorem rd_expTab {lmax m : ℕ} (a : ℝ) (h : m ≤ lmax) :
    rd (expTab lmax a) (m : ℤ) = ok (⟨Real.cos (a * m), -Real.sin (a * m)⟩ : ℂ) := by
  rw [rd_nat (by unfold expTab; simp; omega)]
  unfold expTab; simp

theorem fold_tmp (f : List ℂ → Ev → Res (List ℂ)) (g : Ev → ℂ) (N : ℕ) (tr : List (ℕ × Ev)) (tmp : List ℂ) (hN : tmp.length = N)
    (hf : ∀ tmp : List ℂ, tmp.length = N → ∀ e ∈ tr, 0 ≤ e.2.m ∧ e.2.m.toNat < N ∧
      f tmp e.2 = ok (tmp.set e.2.m.toNat (tmp.getD e.2.m.toNat 0 + g e.2))) :
    ∃ t, foldRes (fun tmp e => f tmp e.2) tmp tr = ok t ∧ t.length = N ∧ ∀ m : ℕ, m < N →
      t.getD m 0 = tmp.getD m 0 + (((tr.filter (fun e => e.2.m = (m : ℤ))).map Prod.snd).map g).sum := by
  induction tr generalizing tmp with
  | nil => exact ⟨tmp, rfl, hN, fun m _ => by simp⟩
  | cons e tr ih =>
    obtain ⟨h0, h1, h2⟩ := hf tmp hN e (by simp)
    rw [foldRes_cons, h2]
    obtain ⟨t, ht, hl, hv⟩ := ih (tmp.set e.2.m.toNat (tmp.getD e.2.m.toNat 0 + g e.2)) (by simpa using hN)
      (fun tmp' x c' hc' => hf tmp' x c' (by simp [hc']))
    refine ⟨t, ht, hl, ?_⟩
    intro m hm
    rw [hv m hm]
    by_cases hem : e.2.m = m
    · have : e.2.m.toNat = m := by omega
      rw [this, getD_set_self _ (by omega), List.filter_cons_of_pos (by simp [hem])]
      simp only [List.map_cons, List.sum_cons]
      ring
    · rw [getD_set_ne _ (by omega), List.filter_cons_of_neg (by simp [hem])]

theorem sum_range' (l : ℕ) (f : ℕ → ℂ) : ((List.range' 1 l).map f).sum = ∑ k ∈ Finset.range l, f (k + 1) := by
  induction l with
  | zero => simp
  | succ l ih => rw [List.range'_1_concat, List.map_append, List.sum_append, ih, Finset.sum_range_succ, add_comm 1 l]; simp

theorem odd_pow {b : Bool} {x : ℤ} {n : ℕ} (hb : b = decide (x % 2 = 1)) (h : x % 2 = (n : ℤ) % 2) (u : ℝ) :
    (if b = true then -u else u) = (-1) ^ n * u := by
  subst hb
  by_cases h1 : x % 2 = 1
  · rw [if_pos (by simpa using h1), Odd.neg_one_pow (Nat.odd_iff.mpr (by omega))]; ring
  · rw [if_neg (by simpa using h1), Even.neg_one_pow (Nat.even_iff.mpr (by omega))]; ring

theorem evOf_m (m : ℤ) (mm : ℕ) : (evOf m mm).m = m := rfl
theorem evOf_mm (m : ℤ) (mm : ℕ) : (evOf m mm).mm = mm := rfl

theorem rotateL_spec {lmax l nthr : ℕ} {psi theta phi : ℝ} {alm : Alm ℂ} (hwf : alm.WF) (hl : alm.lmax = lmax) (hm : alm.mmax = lmax)
    (hll : l ≤ lmax) {d : A2} (h1 : d.n1 = lmax + 1) (h2 : d.n2 = 2 * lmax + 1)
    (hrow : ∀ k ≤ l, Row (Real.cos (theta / 2)) (Real.sin (theta / 2)) d (2 * l) k) (hn : 0 < nthr) {tr : List (ℕ × Ev)}
    (htr : Interleaves nthr l tr) {tmp : List ℂ} (htmp : tmp.length = lmax + 1) :
    ∃ b t, rotateL alm l (expTab lmax psi) (expTab lmax phi) d tr tmp = ok (b, t) ∧ t.length = lmax + 1 ∧ b.WF ∧
      b.lmax = lmax ∧ b.mmax = lmax ∧ (∀ m : ℕ, m ≤ l → b.get l m = ok ((coef alm l 0 * wignerD l 0 (-m) theta
        + ∑ k ∈ Finset.range l, term (coef alm) psi theta l m (k + 1)) * ⟨Real.cos (phi * m), -Real.sin (phi * m)⟩)) ∧
      ∀ l' m', l' ≠ l → Valid lmax lmax l' m' → b.get l' m' = alm.get l' m' := by
  have dv : ∀ k i : ℕ, k ≤ l → i ≤ 2 * l → d.v k i = wignerD l ((l : ℤ) - k) ((l : ℤ) - i) theta := by
    intro k i hk hi
    rw [hrow k hk i hi, W_wigner theta (by omega) hi]
  have cg : ∀ m : ℕ, m ≤ l → alm.get l m = ok (coef alm l m) := fun m hmm =>
    get_coef hwf ⟨by omega, by omega, by omega, by omega⟩
  unfold rotateL
  -- first loop
  obtain ⟨t0, ht0, hlen0, hv0⟩ := forN_inv (l + 1) (fun m (tmp : List ℂ) => do
      let a ← alm.get l 0
      let x ← d.get l ((l : ℤ) + m)
      wr tmp m (a * x)) tmp (fun n t => t.length = lmax + 1 ∧ ∀ m < n, t.getD m 0 = coef alm l 0 * wignerD l 0 (-(m : ℤ)) theta)
    ⟨htmp, by omega⟩ (by
      rintro m t hml ⟨hlen, hv⟩
      have c0 := cg 0 (by omega)
      rw [Nat.cast_zero] at c0
      rw [c0]; simp only [ok_bind]
      rw [A2.get_ok' l (l + m) rfl (by push_cast; rfl) (by omega) (by omega)]
      simp only [ok_bind]
      rw [wr_nat _ (by omega)]
      refine ⟨_, rfl, by simpa using hlen, ?_⟩
      intro m' hm'
      by_cases e : m' = m
      · subst e
        rw [getD_set_self _ (by omega), dv _ _ le_rfl (by omega)]
        congr 3
        · ring
        · push_cast; ring
      · rw [getD_set_ne _ (by omega)]; exact hv m' (by omega))
  rw [ht0]; simp only [ok_bind]
  -- the parallel region
  obtain ⟨t1, ht1, hlen1, hv1⟩ := fold_tmp (exec alm l (expTab lmax psi) d)
    (fun e => term (coef alm) psi theta l e.m e.mm) (lmax + 1) tr t0 hlen0 (by
      intro tmp' hlen' e he
      obtain ⟨m, mm, hml, hmm1, hmml, hev⟩ := interleave_range htr e he
      rw [hev]
      refine ⟨by simp [evOf], by simp only [evOf, Int.toNat_natCast]; omega, ?_⟩
      unfold exec
      simp only [evOf_m, evOf_mm]
      rw [cg mm hmml]; simp only [ok_bind]
      rw [rd_expTab psi (by omega)]; simp only [ok_bind]
      rw [A2.get_ok' (l - mm) (l - m) (by omega) (by omega) (by omega) (by omega)]; simp only [ok_bind]
      rw [A2.get_ok' (l - mm) (l + m) (by omega) (by push_cast; rfl) (by omega) (by omega)]; simp only [ok_bind]
      rw [rd_nat (by omega)]; simp only [ok_bind]
      rw [wr_nat _ (by omega), Int.toNat_natCast]
      congr 2
      rw [dv _ _ (by omega) (by omega), dv _ _ (by omega) (by omega)]
      rw [show ((l : ℤ) - ((l - mm : ℕ) : ℤ)) = mm by omega, show ((l : ℤ) - ((l - m : ℕ) : ℤ)) = m by omega,
        show ((l : ℤ) - ((l + m : ℕ) : ℤ)) = -m by omega]
      have eg : tmp'[m] = tmp'.getD m 0 := by
        have : m < tmp'.length := by omega
        simp [List.getD, this]
      rw [odd_pow (b := (evOf m mm).flip2) (x := (mm : ℤ) + m) (n := mm + (m : ℤ).natAbs) rfl (by rw [Int.natAbs_natCast]; push_cast; rfl),
        odd_pow (b := (evOf m mm).flip) (x := (mm : ℤ)) (n := mm) rfl rfl, ← eg]
      unfold term
      apply Complex.ext
      · simp only [Complex.add_re]
      · simp only [Complex.add_im])
  rw [ht1]; simp only [ok_bind]
  -- last loop
  obtain ⟨b, hb, bwf, bl, bm, bdone, btodo⟩ := forN_inv (l + 1) (fun m (alm : Alm ℂ) => do
      let x ← rd t1 m
      let e ← rd (expTab lmax phi) m
      alm.put l m (x * e)) alm (fun n b => b.WF ∧ b.lmax = lmax ∧ b.mmax = lmax ∧
        (∀ m : ℕ, m < n → b.get l m = ok (t1.getD m 0 * ⟨Real.cos (phi * m), -Real.sin (phi * m)⟩)) ∧
        ∀ l' m', (l' ≠ l) → Valid lmax lmax l' m' → b.get l' m' = alm.get l' m')
    ⟨hwf, hl, hm, by omega, fun _ _ _ _ => rfl⟩ (by
      rintro m b hml ⟨bwf, bl, bm, bdone, btodo⟩
      rw [rd_nat (by omega)]; simp only [ok_bind]
      rw [rd_expTab phi (by omega)]; simp only [ok_bind]
      obtain ⟨c, hc, cwf, cl, cm, cg1, cg2⟩ := C24_put_get b bwf l m (t1[m] * ⟨Real.cos (phi * m), -Real.sin (phi * m)⟩)
        ⟨by omega, by omega, by omega, by omega⟩
      refine ⟨c, hc, cwf, by rw [cl, bl], by rw [cm, bm], ?_, ?_⟩
      · intro m' hm'
        by_cases e : m' = m
        · subst e
          rw [cg1]
          have : m' < t1.length := by omega
          simp [List.getD, this]
        · rw [cg2 _ _ ⟨by omega, by omega, by omega, by omega⟩ (by simp; omega)]
          exact bdone m' (by omega)
      · intro l' m' hne hv
        rw [cg2 l' m' (by rw [bl, bm]; exact hv) (by simp; intro h; exact absurd h hne)]
        exact btodo l' m' hne hv)
  rw [hb]
  refine ⟨b, t1, rfl, hlen1, bwf, bl, bm, ?_, btodo⟩
  intro m hml
  rw [bdone m (by omega), hv1 m (by omega), hv0 m (by omega), interleave_filter hn htr (by omega) (by omega), List.map_map,
    sum_range']
  rfl

/-- The body in terms of the rotation matrix. -/
theorem term_eq (a : ℤ → ℤ → ℂ) (psi theta : ℝ) {l mm m : ℕ} (hm : m ≤ l) (h1 : 1 ≤ mm) (hmm : mm ≤ l) :
    term a psi theta l m mm = (wignerD l m mm theta : ℂ) * Complex.exp (-(Complex.I * mm * psi)) * full a l mm
      + (wignerD l m (-(mm : ℤ)) theta : ℂ) * Complex.exp (Complex.I * mm * psi) * full a l (-(mm : ℤ)) := by
  have ha : ∀ x : ℕ, x ≤ l → |(x : ℤ)| ≤ l := fun x hx => abs_le.mpr ⟨by omega, by omega⟩
  have ha' : ∀ x : ℕ, x ≤ l → |(-(x : ℤ))| ≤ l := fun x hx => abs_le.mpr ⟨by omega, by omega⟩
  have d1 : (-1 : ℝ) ^ (mm + m) * wignerD l mm m theta = wignerD l m mm theta := by
    rw [wignerD_transpose l (ha mm hmm) (ha m hm), Int.natAbs_natCast, Int.natAbs_natCast]
  have d2 : wignerD l mm (-(m : ℤ)) theta = wignerD l m (-(mm : ℤ)) theta := by
    have x1 := wignerD_neg_neg l (m' := (m : ℤ)) (m := -(mm : ℤ)) (ha m hm) (ha' mm hmm) theta
    have x2 := wignerD_transpose l (m' := -(m : ℤ)) (m := (mm : ℤ)) (ha' m hm) (ha mm hmm) theta
    rw [neg_neg] at x1
    rw [x2, x1, ← mul_assoc]
    simp only [Int.natAbs_neg, Int.natAbs_natCast]
    rw [← pow_add, ← two_mul, pow_mul]; simp
  have e1 : Complex.exp (-(Complex.I * mm * psi)) = ⟨Real.cos (psi * mm), -Real.sin (psi * mm)⟩ := by
    rw [show -(Complex.I * mm * psi) = ((-(psi * mm) : ℝ) : ℂ) * Complex.I by push_cast; ring, Complex.exp_mul_I]
    apply Complex.ext <;> simp [← Complex.ofReal_cos, ← Complex.ofReal_sin, ← Complex.ofReal_mul, ← Complex.ofReal_natCast,
      -Complex.ofReal_mul]
  have e2 : Complex.exp (Complex.I * mm * psi) = (starRingEnd ℂ) ⟨Real.cos (psi * mm), -Real.sin (psi * mm)⟩ := by
    rw [← e1, ← Complex.exp_conj]
    congr 1
    simp
  have f1 : full a l mm = a l mm := by unfold full; rw [if_pos (by omega)]
  have f2 : full a l (-(mm : ℤ)) = (-1) ^ mm * (starRingEnd ℂ) (a l mm) := by
    unfold full; rw [if_neg (by omega)]; simp
  rw [e1, e2, f1, f2]
  unfold term
  simp only [Int.natAbs_natCast]
  rw [d1, d2]
  set z : ℂ := ⟨Real.cos (psi * mm), -Real.sin (psi * mm)⟩
  set A := wignerD l m mm theta
  set B := wignerD l m (-(mm : ℤ)) theta
  have key : (⟨(a l mm * z).re * (A + (-1) ^ mm * B), (a l mm * z).im * (A - (-1) ^ mm * B)⟩ : ℂ) =
      (A : ℂ) * (a l mm * z) + (((-1) ^ mm * B : ℝ) : ℂ) * (starRingEnd ℂ) (a l mm * z) := by
    apply Complex.ext
    · simp only [Complex.add_re, Complex.re_ofReal_mul, Complex.conj_re]; ring
    · simp only [Complex.add_im, Complex.im_ofReal_mul, Complex.conj_im]; ring
  rw [key, map_mul]
  push_cast
  ring

theorem sum_symm (l : ℕ) (f : ℤ → ℂ) : ∑ i ∈ Finset.range (2 * l + 1), f ((i : ℤ) - l) =
    f 0 + ∑ k ∈ Finset.range l, (f ((k : ℤ) + 1) + f (-((k : ℤ) + 1))) := by
  rw [show 2 * l + 1 = l + (l + 1) by ring, Finset.sum_range_add, Finset.sum_range_succ' _ l, Finset.sum_add_distrib]
  have h1 : ∑ x ∈ Finset.range l, f ((x : ℤ) - l) = ∑ x ∈ Finset.range l, f (-((x : ℤ) + 1)) := by
    rw [← Finset.sum_range_reflect]
    apply Finset.sum_congr rfl
    intro x hx
    have := Finset.mem_range.mp hx
    congr 1
    omega
  rw [h1]
  have h2 : ∑ k ∈ Finset.range l, f (((l + (k + 1) : ℕ) : ℤ) - l) = ∑ k ∈ Finset.range l, f ((k : ℤ) + 1) := by
    apply Finset.sum_congr rfl
    intro x _
    congr 1; push_cast; ring
  rw [h2]
  simp
  ring

theorem value_eq (a : ℤ → ℤ → ℂ) (psi theta phi : ℝ) {l m : ℕ} (hm : m ≤ l) :
    (a l 0 * wignerD l 0 (-m) theta + ∑ k ∈ Finset.range l, term a psi theta l m (k + 1)) *
      ⟨Real.cos (phi * m), -Real.sin (phi * m)⟩ = rotated a psi theta phi l m := by
  unfold rotated
  rw [sum_symm l (fun j => (wignerD l m j theta : ℂ) * Complex.exp (-(Complex.I * (j : ℤ) * psi)) * full a l j)]
  have e1 : Complex.exp (-(Complex.I * (m : ℤ) * phi)) = ⟨Real.cos (phi * m), -Real.sin (phi * m)⟩ := by
    rw [show -(Complex.I * (m : ℤ) * phi) = ((-(phi * m) : ℝ) : ℂ) * Complex.I by push_cast; ring, Complex.exp_mul_I]
    apply Complex.ext <;> simp [← Complex.ofReal_cos, ← Complex.ofReal_sin, ← Complex.ofReal_mul, ← Complex.ofReal_natCast,
      -Complex.ofReal_mul]
  rw [e1, mul_comm]
  congr 1
  congr 1
  · have d : wignerD l 0 (-(m : ℤ)) theta = wignerD l m 0 theta := by
      have x1 := wignerD_neg_neg l (m' := (m : ℤ)) (m := 0) (abs_le.mpr ⟨by omega, by omega⟩) (abs_le.mpr ⟨by omega, by omega⟩) theta
      have x2 := wignerD_transpose l (m' := -(m : ℤ)) (m := 0) (abs_le.mpr ⟨by omega, by omega⟩) (abs_le.mpr ⟨by omega, by omega⟩) theta
      rw [neg_zero] at x1
      rw [x2, x1, ← mul_assoc]
      simp only [Int.natAbs_neg, Int.natAbs_natCast, Int.natAbs_zero, add_zero]
      rw [← pow_add, ← two_mul, pow_mul]; simp
    rw [d]
    unfold full
    simp
    ring
  · apply Finset.sum_congr rfl
    intro k hk
    have := Finset.mem_range.mp hk
    rw [term_eq a psi theta hm (by omega) (by omega)]
    push_cast
    congr 2
    congr 2
    ring

theorem rd_congr_coef {a b : Alm ℂ} {l m : ℤ} (h : a.get l m = b.get l m) : coef a l m = coef b l m := by
  unfold coef; rw [h]

/-! ## The theorems -/

/-- C47: after `n + 1` calls of `recurse` (`n ≤ lmax`), with any initial contents of the tables, the table of the serial class holds
`d[k][i] = d^n_{n-k,n-i}(θ)` for `k ≤ n`, `i ≤ 2n`, and no access is out of bounds. -/
theorem C47_scalar_table (lmax : ℕ) (θ : ℝ) (junk junk' : ℕ → ℕ → ℝ) (n : ℕ) (hn : n ≤ lmax) :
    ∃ r, calls Rec.scalar (Rec.new lmax θ junk junk') (n + 1) = ok r ∧
      ∀ k i : ℕ, k ≤ n → i ≤ 2 * n → r.d.get k i = ok (wignerD n ((n : ℤ) - k) ((n : ℤ) - i) θ) := by
  obtain ⟨r, hr, hg⟩ := scalar_calls lmax θ junk junk' hn
  refine ⟨r, hr, ?_⟩
  intro k i hk hi
  rw [A2.get_ok (by rw [hg.h1]; omega) (by rw [hg.h2]; omega), hg.rows k hk i hi, W_wigner θ (by omega) hi]

/-- C47: the same for the parallel class, whatever the order in which its threads fill the table (`s j`: the order of the assignments in
the parallel loop of half step `j`, any permutation of them). -/
theorem C47_omp_table (lmax : ℕ) (θ : ℝ) (junk junk' : ℕ → ℕ → ℝ) (s : ℕ → List (ℕ × ℕ))
    (hs : ∀ j, (s j).Perm (cells ((j + 1) / 2) j)) (n : ℕ) (hn : n ≤ lmax) :
    ∃ r, calls (Rec.omp s) (Rec.new lmax θ junk junk') (n + 1) = ok r ∧
      ∀ k i : ℕ, k ≤ n → i ≤ 2 * n → r.d.get k i = ok (wignerD n ((n : ℤ) - k) ((n : ℤ) - i) θ) := by
  obtain ⟨r, hr, hg⟩ := omp_calls lmax θ junk junk' hs hn
  refine ⟨r, hr, ?_⟩
  intro k i hk hi
  rw [A2.get_ok (by rw [hg.h1]; omega) (by rw [hg.h2]; omega), hg.rows k hk i hi, W_wigner θ (by omega) hi]

/-- C47: the serial and the parallel class give the same table. -/
theorem C47_scalar_eq_omp (lmax : ℕ) (θ : ℝ) (junk junk' junk2 junk2' : ℕ → ℕ → ℝ) (s : ℕ → List (ℕ × ℕ))
    (hs : ∀ j, (s j).Perm (cells ((j + 1) / 2) j)) (n : ℕ) (hn : n ≤ lmax) :
    ∃ r r', calls Rec.scalar (Rec.new lmax θ junk junk') (n + 1) = ok r ∧
      calls (Rec.omp s) (Rec.new lmax θ junk2 junk2') (n + 1) = ok r' ∧
      ∀ k i : ℕ, k ≤ n → i ≤ 2 * n → ∃ x, r.d.get k i = ok x ∧ r'.d.get k i = ok x := by
  obtain ⟨r, hr, h⟩ := C47_scalar_table lmax θ junk junk' n hn
  obtain ⟨r', hr', h'⟩ := C47_omp_table lmax θ junk2 junk2' s hs n hn
  exact ⟨r, r', hr, hr', fun k i hk hi => ⟨_, h k i hk hi, h' k i hk hi⟩⟩

/-- C47: one call more than `lmax + 1` writes outside the table, in both classes. -/
theorem C47_one_call_too_many (lmax : ℕ) (θ : ℝ) (junk junk' : ℕ → ℕ → ℝ) (s : ℕ → List (ℕ × ℕ))
    (hs : ∀ j, (s j).Perm (cells ((j + 1) / 2) j)) :
    (calls Rec.scalar (Rec.new lmax θ junk junk') (lmax + 2)).IsUB ∧
    (calls (Rec.omp s) (Rec.new lmax θ junk junk') (lmax + 2)).IsUB := by
  have hfirst : ∀ (q p : ℝ) (sq : List ℝ) (d : A2), d.n1 = 1 → d.n2 = 1 → (first q p (sqTab 0) d).IsUB := by
    intro q p sq d d1 d2
    unfold first
    rw [A2.put_ok' (k := 0) (i := 0) _ 0 0 rfl rfl (by omega) (by omega)]
    simp only [ok_bind]
    rw [rd_ub (Or.inr (by unfold sqTab; simp))]
    exact trivial
  have hpad : ∀ (n : ℕ) (d : A2), d.n1 = n → 1 ≤ n → (pad n d).IsUB := by
    intro n d d1 hn
    unfold pad
    have : ∀ t, (forN (t + 1) (fun i (r : ℝ × A2) => do
      let x ← r.2.get ((n : ℤ) - 2) (2 * (n : ℤ) - 2 - i)
      let d ← r.2.put n i (r.1 * x)
      ok (-r.1, d)) (if n % 2 = 1 then (-1 : ℝ) else 1, d)).IsUB := by
      intro t
      induction t with
      | zero =>
        rw [forN_succ, forN_zero, ok_bind]
        dsimp only
        cases hx : d.get ((n : ℤ) - 2) (2 * (n : ℤ) - 2 - (0 : ℕ)) with
        | ok x =>
          simp only [ok_bind]
          unfold A2.put
          rw [if_neg (by omega)]
          exact trivial
        | throw m => unfold A2.get at hx; split at hx <;> cases hx
        | ub w => exact trivial
      | succ t ih =>
        rw [forN_succ]
        revert ih
        cases forN (t + 1) _ _ with
        | ok x => intro ih; exact ih.elim
        | throw m => intro ih; exact ih.elim
        | ub w => intro _; exact trivial
    obtain ⟨t, ht⟩ : ∃ t, 2 * n - 1 = t + 1 := ⟨2 * n - 2, by omega⟩
    have h := this t
    rw [ht]
    revert h
    cases forN (t + 1) _ _ with
    | ok x => intro ih; exact ih.elim
    | throw m => intro ih; exact ih.elim
    | ub w => intro _; exact trivial
  have ubb : ∀ {α β : Type} (x : Res α) (f : α → Res β), x.IsUB → (x >>= f).IsUB := by
    intro α β x f h
    cases x with
    | ok a => exact h.elim
    | throw m => exact h.elim
    | ub w => exact trivial
  constructor
  · obtain ⟨r, hr, hg⟩ := scalar_calls lmax θ junk junk' (le_refl lmax)
    rw [calls, hr, ok_bind]
    have hn := hg.hn
    unfold Rec.scalar
    simp only
    rw [if_neg (by omega)]
    by_cases h0 : lmax = 0
    · subst h0
      rw [if_pos (by omega), hg.hsq]
      exact ubb _ _ (hfirst _ _ r.sqt _ hg.h1 hg.h2)
    · rw [if_neg (by omega), show (r.n + 1).toNat = lmax + 1 by omega]
      unfold scalarStep
      exact ubb _ _ (ubb _ _ (hpad _ _ hg.h1 (by omega)))
  · obtain ⟨r, hr, hg⟩ := omp_calls lmax θ junk junk' hs (le_refl lmax)
    rw [calls, hr, ok_bind]
    have hn := hg.hn
    unfold Rec.omp
    simp only
    rw [if_neg (by omega)]
    by_cases h0 : lmax = 0
    · subst h0
      rw [if_pos (by omega), hg.hsq]
      exact ubb _ _ (ubb _ _ (hfirst _ _ r.sqt _ hg.h1 hg.h2))
    · rw [if_neg (by omega), show (r.n + 1).toNat = lmax + 1 by omega]
      unfold ompStep
      exact ubb _ _ (ubb _ _ (hpad _ _ hg.h1 (by omega)))

/-- C47: `rotate_alm` on an expansion with `lmax = mmax` returns, without out-of-bounds access,
`a'_{lm} = e^{-imφ} Σ_{m'} d^l_{mm'}(θ) e^{-im'ψ} a_{lm'}`, whatever the number of threads in each parallel region, and however
their work is interleaved; if `lmax ≠ mmax` it throws. -/
theorem C47_rotate (junk junk' : ℕ → ℕ → ℝ) (sR : ℕ → List (ℕ × ℕ)) (sT : ℕ → List (ℕ × Ev)) (nthr : ℕ → ℕ) (alm : Alm ℂ)
    (psi theta phi : ℝ) (hwf : alm.WF) (hR : ∀ j, (sR j).Perm (cells ((j + 1) / 2) j))
    (hT : ∀ l, 0 < nthr l ∧ Interleaves (nthr l) l (sT l)) :
    (alm.lmax ≠ alm.mmax → (rotateAlm junk junk' sR sT alm psi theta phi).IsThrow) ∧
    (alm.lmax = alm.mmax → ∃ b, rotateAlm junk junk' sR sT alm psi theta phi = ok b ∧ b.WF ∧ b.lmax = alm.lmax ∧
      b.mmax = alm.mmax ∧ ∀ l m : ℕ, m ≤ l → (l : ℤ) ≤ alm.lmax → b.get l m = ok (rotated (coef alm) psi theta phi l m)) := by
  constructor
  · intro h
    unfold rotateAlm
    rw [if_neg h]
    exact trivial
  · intro hlm
    have h0 := hwf.1
    obtain ⟨lmax, hl⟩ : ∃ n : ℕ, alm.lmax = n := ⟨alm.lmax.toNat, by omega⟩
    unfold rotateAlm
    rw [if_pos hlm, hl, show ((lmax : ℤ) + 1).toNat = lmax + 1 by omega, Int.toNat_natCast]
    obtain ⟨r, hr, hcalls, hlen, bwf, bl, bm, bdone, -⟩ := forN_inv (lmax + 1) (fun l (r : Rec × Alm ℂ × List ℂ) => do
      let rec' ← r.1.omp sR
      let x ← rotateL r.2.1 l (expTab lmax psi) (expTab lmax phi) rec'.d (sT l) r.2.2
      ok (rec', x)) (Rec.new lmax theta junk junk', alm, List.replicate (lmax + 1) 0)
      (fun n r => calls (Rec.omp sR) (Rec.new lmax theta junk junk') n = ok r.1 ∧ r.2.2.length = lmax + 1 ∧ r.2.1.WF ∧
        r.2.1.lmax = lmax ∧ r.2.1.mmax = lmax ∧
        (∀ l m : ℕ, m ≤ l → l < n → r.2.1.get l m = ok (rotated (coef alm) psi theta phi l m)) ∧
        (∀ l m : ℕ, m ≤ l → n ≤ l → l ≤ lmax → r.2.1.get l m = alm.get l m))
      ⟨rfl, by simp, hwf, hl, by simp only; omega, by omega, fun _ _ _ _ _ => rfl⟩ (by
        rintro l ⟨rec0, a, tmp⟩ hll ⟨hcalls, hlen, awf, al, am, adone, atodo⟩
        simp only at hcalls hlen awf al am adone atodo
        obtain ⟨rec', hrec, hg⟩ := omp_calls lmax theta junk junk' hR (show l ≤ lmax by omega)
        have hrec2 := hrec
        rw [calls, hcalls, ok_bind] at hrec2
        simp only
        rw [hrec2]; simp only [ok_bind]
        obtain ⟨b, t, hb, tlen, bwf, bl, bm, bdone, btodo⟩ := rotateL_spec (psi := psi) (theta := theta) (phi := phi) awf al am
          (show l ≤ lmax by omega) hg.h1 hg.h2 hg.rows (hT l).1 (hT l).2 hlen
        rw [hb]
        refine ⟨_, rfl, hrec, tlen, bwf, bl, bm, ?_, ?_⟩
        · intro l' m hml hl'
          by_cases e : l' = l
          · subst e
            simp only
            rw [bdone m hml, value_eq _ _ _ _ hml]
            congr 1
            unfold rotated
            congr 1
            apply Finset.sum_congr rfl
            intro i hi
            have hi' := Finset.mem_range.mp hi
            congr 1
            unfold full
            have ce : ∀ m : ℤ, 0 ≤ m → m ≤ l' → coef a l' m = coef alm l' m := by
              intro m h0 h1
              have := atodo l' m.toNat (by omega) le_rfl (by omega)
              rw [Int.toNat_of_nonneg h0] at this
              exact rd_congr_coef this
            split
            · exact ce _ (by omega) (by omega)
            · rw [ce _ (by omega) (by omega)]
          · simp only
            rw [btodo l' m (by omega) ⟨by omega, by omega, by omega, by omega⟩]
            exact adone l' m hml (by omega)
        · intro l' m hml hl' hl''
          simp only
          rw [btodo l' m (by omega) ⟨by omega, by omega, by omega, by omega⟩]
          exact atodo l' m hml (by omega) hl'')
    rw [hr]
    exact ⟨r.2.1, rfl, bwf, by rw [bl], by omega, fun l m hml hl' => bdone l m hml (by omega)⟩

end Verif.Risbo
