import Verif.Fft.RBlue

/-! # The tables do not depend on what freshly allocated memory contains -/

namespace Verif.Fft
open Verif Res Finset

theorem forN_rel {σ : Type} (n : ℕ) (f : ℕ → σ → Res σ) {s s' t t' : σ} (R : ℕ → σ → σ → Prop) (h0 : R 0 s s')
    (hs : ∀ i x x' y y', i < n → R i x x' → f i x = ok y → f i x' = ok y' → R (i + 1) y y')
    (h : forN n f s = ok t) (h' : forN n f s' = ok t') : R n t t' := by
  induction n generalizing t t' with
  | zero => cases h; cases h'; exact h0
  | succ n ih =>
    obtain ⟨x, hx, hy⟩ := bind_eq_ok.mp h
    obtain ⟨x', hx', hy'⟩ := bind_eq_ok.mp h'
    exact hs n _ _ _ _ (by omega) (ih (fun i a b c d hi => hs i a b c d (by omega)) hx hx') hy hy'

/-- Two arrays of the same length that agree on the indices in `P`. -/
def Agr (P : ℕ → Prop) (a b : List ℂ) : Prop := a.length = b.length ∧ ∀ x, P x → a.getD x 0 = b.getD x 0

theorem Agr.mono {P Q : ℕ → Prop} {a b : List ℂ} (h : Agr P a b) (hq : ∀ x, Q x → x < a.length → P x) : Agr Q a b := by
  refine ⟨h.1, fun x hx => ?_⟩
  by_cases hl : x < a.length
  · exact h.2 x (hq x hx hl)
  · have hb : ¬ x < b.length := by rw [← h.1]; exact hl
    simp [List.getD, List.getElem?_eq_none (not_lt.mp hl), List.getElem?_eq_none (not_lt.mp hb)]

theorem Agr.eq {P : ℕ → Prop} {a b : List ℂ} (h : Agr P a b) (hp : ∀ x < a.length, P x) : a = b :=
  ext_getD rfl h.1.symm fun q hq => h.2 q (hp q hq)

theorem wr_rel {P : ℕ → Prop} {a b a' b' : List ℂ} (h : Agr P a b) {i : ℕ} {v : ℂ} (ha : wr a (i : ℤ) v = ok a') (hb : wr b (i : ℤ) v = ok b') :
    Agr (fun x => P x ∨ x = i) a' b' := by
  obtain ⟨hl, he⟩ := h
  by_cases hi : i < a.length
  · rw [wr_nat _ hi] at ha
    rw [wr_nat _ (by omega)] at hb
    cases ha; cases hb
    refine ⟨by simpa using hl, fun x hx => ?_⟩
    by_cases e : x = i
    · subst e; rw [getD_set_self _ hi, getD_set_self _ (by omega)]
    · rw [getD_set_ne _ (by omega), getD_set_ne _ (by omega)]; exact he x (hx.resolve_right e)
  · exfalso
    unfold wr at ha
    simp [hi] at ha

theorem rd_rel {P : ℕ → Prop} {a b : List ℂ} (h : Agr P a b) {i : ℕ} (hi : P i) {x y : ℂ} (ha : rd a (i : ℤ) = ok x) (hb : rd b (i : ℤ) = ok y) : x = y := by
  by_cases hl : i < a.length
  · rw [rdD hl] at ha
    rw [rdD (by rw [← h.1]; exact hl)] at hb
    cases ha; cases hb; exact h.2 i hi
  · exfalso
    unfold rd at ha
    simp [hl] at ha

/-! ## twiddle factors -/

theorem twRowR_rel {f : FA} {n ip ido l1 j is : ℕ} {wa wb : List ℂ} {r r' : ℕ × List ℂ} (h : Agr (· < is) wa wb)
    (ha : twRowR f n ip ido l1 j (is, wa) = ok r) (hb : twRowR f n ip ido l1 j (is, wb) = ok r') :
    r.1 = is + ido ∧ r'.1 = is + ido ∧ Agr (· < is + ido + 1) r.2 r'.2 := by
  unfold twRowR at ha hb
  dsimp only at ha hb
  obtain ⟨a1, ha1, ha⟩ := bind_eq_ok.mp ha
  obtain ⟨b1, hb1, hb⟩ := bind_eq_ok.mp hb
  obtain ⟨a2, ha2, ha⟩ := bind_eq_ok.mp ha
  obtain ⟨b2, hb2, hb⟩ := bind_eq_ok.mp hb
  have h2 : Agr (· < is + ido + 1) a2 b2 := by
    refine forN_rel ido _ (fun m x y => Agr (· < is + m + 1) x y) ((wr_rel h ha1 hb1).mono fun x hx _ => by omega) ?_ ha2 hb2
    intro i x x' y y' hi hR hy hy'
    exact (wr_rel hR hy hy').mono fun x hx _ => by omega
  by_cases h6 : ip > 6
  · rw [if_pos h6] at ha hb
    obtain ⟨x, hx, ha'⟩ := bind_eq_ok.mp ha
    obtain ⟨y, hy, hb'⟩ := bind_eq_ok.mp hb
    have e := rd_rel h2 (by omega) hx hy
    subst e
    obtain ⟨a3, ha3, ha''⟩ := bind_eq_ok.mp ha'
    obtain ⟨b3, hb3, hb''⟩ := bind_eq_ok.mp hb'
    cases ha''; cases hb''
    exact ⟨rfl, rfl, (wr_rel h2 ha3 hb3).mono fun x hx _ => Or.inl hx⟩
  · rw [if_neg h6] at ha hb
    cases ha; cases hb
    exact ⟨rfl, rfl, h2⟩

theorem twStepR_rel {f : FA} {n ip : ℕ} {s s' t t' : IS} (hip : 2 ≤ ip) (h1 : s.l1 = s'.l1) (hi : s.i = s'.i) (h : Agr (· < s.i) s.wa s'.wa)
    (ha : twStepR f n s ip = ok t) (hb : twStepR f n s' ip = ok t') :
    t.l1 = t'.l1 ∧ t.i = t'.i ∧ t.i = s.i + (ip - 1) * (n / (s.l1 * ip)) ∧ Agr (· < t.i + 1) t.wa t'.wa := by
  unfold twStepR at ha hb
  dsimp only at ha hb
  obtain ⟨a, ha1, ha⟩ := bind_eq_ok.mp ha
  obtain ⟨b, hb1, hb⟩ := bind_eq_ok.mp hb
  cases ha; cases hb
  rw [← h1] at hb1
  have := forN_rel (ip - 1) _ (fun m (x y : ℕ × List ℂ) => x.1 = y.1 ∧ x.1 = s.i + m * (n / (s.l1 * ip)) ∧ Agr (· < x.1 + min m 1) x.2 y.2)
    ⟨hi, by simp, h.mono fun x hx _ => by simpa using hx⟩ (by
      rintro i ⟨x1, x2⟩ ⟨y1, y2⟩ z z' _ ⟨e, e', hR⟩ hz hz'
      dsimp only at e e' hR
      subst e
      obtain ⟨q1, q2, q3⟩ := twRowR_rel (hR.mono fun x hx _ => by omega) hz hz'
      refine ⟨by omega, by rw [q1, e', add_mul]; ring, q3.mono fun x hx _ => by omega⟩) ha1 hb1
  obtain ⟨q1, q2, q3⟩ := this
  exact ⟨by dsimp only; rw [h1], q1, q2, q3.mono fun x hx _ => by dsimp only at hx; omega⟩

theorem table_rel {f : FA} {n : ℕ} (h0 : n ≠ 0) (fac : List ℕ) : ∀ {s s' t t' : IS} (N1 : ℕ), (∀ x ∈ fac, 2 ≤ x) → n = N1 * s.l1 →
    s.l1 * fac.prod = n → s.i = n - N1 → s.l1 = s'.l1 → s.i = s'.i →
    (fac = [] → Agr (· < s.i + 1) s.wa s'.wa) → Agr (· < s.i) s.wa s'.wa → foldRes (twStepR f n) s fac = ok t → foldRes (twStepR f n) s' fac = ok t' →
    Agr (· < n) t.wa t'.wa := by
  induction fac with
  | nil =>
    intro s s' t t' N1 _ hN hp hi _ _ h _ ha hb
    cases ha; cases hb
    have hl : s.l1 = n := by simpa using hp
    have : N1 = 1 := by
      rw [hl] at hN
      exact Nat.eq_of_mul_eq_mul_right (Nat.pos_of_ne_zero h0) (by rw [← hN, one_mul])
    exact (h rfl).mono fun x hx _ => by omega
  | cons ip fac ih =>
    intro s s' t t' N1 hf hN hp hi h1 hi' _ h ha hb
    rw [foldRes_cons] at ha hb
    obtain ⟨a, ha1, ha⟩ := bind_eq_ok.mp ha
    obtain ⟨b, hb1, hb⟩ := bind_eq_ok.mp hb
    have hip := hf ip (by simp)
    obtain ⟨q1, q2, q3, q4⟩ := twStepR_rel hip h1 hi' h ha1 hb1
    have hl1 : 0 < s.l1 := Nat.pos_of_ne_zero (by rintro h; apply h0; rw [hN, h, mul_zero])
    have hn : n = fac.prod * (s.l1 * ip) := by rw [← hp, List.prod_cons]; ring
    have hN1 : N1 = fac.prod * ip := Nat.eq_of_mul_eq_mul_right hl1 (by rw [← hN, hn]; ring)
    have hNle : N1 ≤ n := by rw [hN]; exact Nat.le_mul_of_pos_right _ hl1
    have hsub : (ip - 1) * fac.prod + fac.prod = N1 := by
      rw [hN1, Nat.sub_mul, mul_comm fac.prod ip, one_mul]
      exact Nat.sub_add_cancel (Nat.le_mul_of_pos_left _ (by omega))
    have hdv : n / (s.l1 * ip) = fac.prod := by
      rw [hn]; exact Nat.mul_div_cancel _ (Nat.mul_pos hl1 (by omega))
    rw [hdv] at q3
    have hal : a.l1 = s.l1 * ip := by
      unfold twStepR at ha1
      obtain ⟨_, _, hx⟩ := bind_eq_ok.mp ha1
      cases hx; rfl
    exact ih fac.prod (fun x hx => hf x (by simp [hx])) (by rw [hal]; exact hn) (by rw [hal, hn]; ring) (by omega) q1 q2
      (fun _ => q4) (q4.mono fun x hx _ => by omega) ha hb

/-- `cffti` fills the table completely. -/
theorem cfftiR_same {f : FA} {u κ : ℝ} (A : FAcc f u κ) {n : ℕ} (h2 : 2 ≤ n) (hn : n < 3 ^ 14) {g g' : ℂ} {w w' : Work} (ha : cfftiR f n g = ok w) (hb : cfftiR f n g' = ok w') :
    w.wa = w'.wa ∧ w.fac = w'.fac := by
  obtain ⟨fac, hf, hg, hp⟩ := factorize_spec n h2 hn
  unfold cfftiR at ha hb
  rw [if_pos (by omega)] at ha hb
  unfold cffti1R at ha hb
  rw [hf, ok_bind] at ha hb
  obtain ⟨a, ha1, ha⟩ := bind_eq_ok.mp ha
  obtain ⟨b, hb1, hb⟩ := bind_eq_ok.mp hb
  obtain ⟨a2, ha2, ha3⟩ := bind_eq_ok.mp ha1
  obtain ⟨b2, hb2, hb3⟩ := bind_eq_ok.mp hb1
  cases ha3; cases hb3; cases ha; cases hb
  have := table_rel (by omega) fac n (fun x hx => (hg x hx).two_le) (by simp) (by simpa using hp) (by simp) (by rfl) (by rfl)
    (by rintro rfl; simp at hp; omega) ⟨by simp, fun x hx => by simp at hx⟩ ha2 hb2
  obtain ⟨t, ht, t1, _⟩ := table_loopR A n (by omega) fac ⟨1, 0, List.replicate n g⟩ n hg (by simp) (by simpa using hp) (by simp) (by simp)
  rw [ha2] at ht
  cases ht
  exact ⟨this.eq fun x hx => by omega, rfl⟩

/-! ## Bluestein -/

theorem initBkR_same {f : FA} {n : ℕ} {a b r r' : List ℂ} (hl : a.length = b.length) (hr : r.length ≤ n) (ha : initBkR f n a = ok r) (hb : initBkR f n b = ok r') :
    r = r' := by
  unfold initBkR at ha hb
  obtain ⟨a1, ha1, ha⟩ := bind_eq_ok.mp ha
  obtain ⟨b1, hb1, hb⟩ := bind_eq_ok.mp hb
  obtain ⟨a2, ha2, ha⟩ := bind_eq_ok.mp ha
  obtain ⟨b2, hb2, hb⟩ := bind_eq_ok.mp hb
  cases ha; cases hb
  have h0 : Agr (fun _ => False) a b := ⟨hl, fun _ h => h.elim⟩
  rw [show (0 : ℤ) = ((0 : ℕ) : ℤ) by rfl] at ha1 hb1
  have := forN_rel (n - 1) _ (fun m (x y : ℕ × List ℂ) => x.1 = y.1 ∧ Agr (· < m + 1) x.2 y.2)
    ⟨(by rfl), (wr_rel h0 ha1 hb1).mono fun x hx _ => by omega⟩ (by
      rintro i ⟨x1, x2⟩ ⟨y1, y2⟩ z z' _ ⟨e, hR⟩ hz hz'
      dsimp only at e hR hz hz'
      subst e
      obtain ⟨c, hc, hz⟩ := bind_eq_ok.mp hz
      obtain ⟨d, hd, hz'⟩ := bind_eq_ok.mp hz'
      cases hz; cases hz'
      exact ⟨rfl, (wr_rel hR hc hd).mono fun x hx _ => by omega⟩) ha2 hb2
  exact this.2.eq fun x hx => by omega

theorem initBkfR_same {f : FA} {n n2 : ℕ} (h2 : 2 * n - 1 ≤ n2) (h1 : 1 ≤ n) {bk a b r r' : List ℂ} (hl : a.length = b.length) (hr : r.length ≤ n2)
    (ha : initBkfR f n n2 bk a = ok r) (hb : initBkfR f n n2 bk b = ok r') : r = r' := by
  unfold initBkfR at ha hb
  dsimp only at ha hb
  obtain ⟨z, hz, ha⟩ := bind_eq_ok.mp ha
  rw [hz, ok_bind] at hb
  obtain ⟨a1, ha1, ha⟩ := bind_eq_ok.mp ha
  obtain ⟨b1, hb1, hb⟩ := bind_eq_ok.mp hb
  obtain ⟨a2, ha2, ha⟩ := bind_eq_ok.mp ha
  obtain ⟨b2, hb2, hb⟩ := bind_eq_ok.mp hb
  have h0 : Agr (fun _ => False) a b := ⟨hl, fun _ h => h.elim⟩
  rw [show (0 : ℤ) = ((0 : ℕ) : ℤ) by rfl] at ha1 hb1
  have t1 := forN_rel (n - 1) _ (fun m x y => Agr (fun q => q < m + 1 ∨ (n2 - m ≤ q ∧ q < n2)) x y)
    ((wr_rel h0 ha1 hb1).mono fun x hx _ => by omega) (by
      rintro i x y z z' hi hR hz hz'
      obtain ⟨c, hc, hz⟩ := bind_eq_ok.mp hz
      rw [hc, ok_bind] at hz'
      obtain ⟨d, hd, hz⟩ := bind_eq_ok.mp hz
      obtain ⟨d', hd', hz'⟩ := bind_eq_ok.mp hz'
      rw [show ((n2 : ℤ) - ((i + 1 : ℕ) : ℤ)) = ((n2 - (i + 1) : ℕ) : ℤ) by omega] at hd hd'
      exact (wr_rel (wr_rel hR hd hd') hz hz').mono fun x hx _ => by omega) ha2 hb2
  have t2 := forN_rel (n2 + 1 - 2 * n) _ (fun m x y => Agr (fun q => q < n + m ∨ (n2 - (n - 1) ≤ q ∧ q < n2)) x y)
    (t1.mono fun x hx _ => by omega) (by
      rintro i x y z z' hi hR hz hz'
      exact (wr_rel hR hz hz').mono fun x hx _ => by omega) ha hb
  exact t2.eq fun x hx => by omega

end Verif.Fft
