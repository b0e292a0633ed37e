import Verif.Fft.RGeneral
import Verif.Fft.Stage

/-! # Rounding errors of the passes -/

namespace Verif.Fft
open Verif Res Finset
open Verif.Num (Near)

/-- A list is determined by its values at the output indices of a pass. -/
theorem ext_ixH {ip ido l1 : ℕ} {a b : List ℂ} (ha : a.length = ido * (l1 * ip)) (hb : b.length = ido * (l1 * ip))
    (h : ∀ i < ido, ∀ k < l1, ∀ j < ip, a.getD (ixH ido l1 i k j) 0 = b.getD (ixH ido l1 i k j) 0) : a = b := by
  apply List.ext_getElem (by omega)
  intro x h1 h2
  have hx : x < ido * (l1 * ip) := by omega
  have hido : 0 < ido := Nat.pos_of_ne_zero (by rintro rfl; simp at hx)
  have hl1 : 0 < l1 := Nat.pos_of_ne_zero (by rintro rfl; simp at hx)
  have e := h (x % ido) (Nat.mod_lt _ hido) (x / ido % l1) (Nat.mod_lt _ hl1) (x / ido / l1)
    (Nat.div_lt_of_lt_mul (Nat.div_lt_of_lt_mul hx))
  unfold ixH at e
  rw [Nat.mod_add_div, Nat.mod_add_div] at e
  simpa [List.getD, h1, h2] using e

/-- Value written for component `j` of a column. -/
noncomputable def colValR (f : FA) (back tw : Bool) (ido i : ℕ) (wa : List ℂ) (iw : ℕ) (u : List ℂ) (j : ℕ) : ℂ :=
  if tw && decide (j ≠ 0) then f.mul back (wa.getD (iw + i + (j - 1) * ido) 0) (u.getD j 0) else u.getD j 0

theorem writeColR_spec (f : FA) (back tw : Bool) {ip ido l1 i k : ℕ} (hi : i < ido) (hk : k < l1) (wa : List ℂ) (iw : ℕ) (u ch : List ℂ)
    (hu : u.length = ip) (hw : tw = true → iw + (ip - 1) * ido ≤ wa.length) (hc : ch.length = ido * (l1 * ip)) :
    ∃ ch', writeColR f back tw ip ido l1 i k wa iw u ch = ok ch' ∧ ch'.length = ido * (l1 * ip) ∧
      (∀ j < ip, ch'.getD (ixH ido l1 i k j) 0 = colValR f back tw ido i wa iw u j) ∧
      (∀ x, (∀ j < ip, x ≠ ixH ido l1 i k j) → ch'.getD x 0 = ch.getD x 0) := by
  unfold writeColR
  obtain ⟨ch', hr, h1, h2, h3⟩ := forN_inv ip (fun j ch => do
    let x ← rd u (j : ℤ)
    if tw && decide (j ≠ 0) then do
      let w ← rd wa ((iw + i + (j - 1) * ido : ℕ) : ℤ)
      wr ch (ixH ido l1 i k j : ℤ) (f.mul back w x)
    else wr ch (ixH ido l1 i k j : ℤ) x) ch
    (fun m c => c.length = ido * (l1 * ip) ∧
      (∀ j < m, c.getD (ixH ido l1 i k j) 0 = colValR f back tw ido i wa iw u j) ∧
      (∀ x, (∀ j < m, x ≠ ixH ido l1 i k j) → c.getD x 0 = ch.getD x 0))
    ⟨hc, by omega, fun _ _ => rfl⟩
    (by
      rintro m c hm ⟨h1, h2, h3⟩
      have hlt := ixH_lt (l1 := l1) hi hk hm
      have key : (do
        let x ← rd u (m : ℤ)
        if tw && decide (m ≠ 0) then do
          let w ← rd wa ((iw + i + (m - 1) * ido : ℕ) : ℤ)
          wr c (ixH ido l1 i k m : ℤ) (f.mul back w x)
        else wr c (ixH ido l1 i k m : ℤ) x) = ok (c.set (ixH ido l1 i k m) (colValR f back tw ido i wa iw u m)) := by
        rw [rdD (by omega), ok_bind]
        unfold colValR
        by_cases hb : (tw && decide (m ≠ 0)) = true
        · rw [if_pos hb, if_pos hb]
          simp only [Bool.and_eq_true, decide_eq_true_eq] at hb
          have hw' := hw hb.1
          have : (m - 1 + 1) * ido ≤ (ip - 1) * ido := Nat.mul_le_mul_right _ (by omega)
          rw [add_mul] at this
          rw [rdD (by omega), ok_bind, wr_nat _ (by omega)]
        · rw [if_neg hb, if_neg hb, wr_nat _ (by omega)]
      refine ⟨_, key, by simpa using h1, ?_, ?_⟩
      · intro j hj
        by_cases e : j = m
        · subst e; rw [getD_set_self _ (by omega)]
        · rw [getD_set_ne _ (fun h => e ((ixH_inj hi hi hk hk h).2.2.symm))]; exact h2 j (by omega)
      · intro x hx
        rw [getD_set_ne _ (fun h => hx m (by omega) h.symm)]; exact h3 x (fun j hj => hx j (by omega)))
  exact ⟨ch', hr, h1, h2, h3⟩

theorem gTwiddleR_spec (f : FA) (back : Bool) {ip ido l1 iw : ℕ} (wa ch : List ℂ) (hlen : iw + (ip - 1) * ido ≤ wa.length)
    (hch : ch.length = ido * (l1 * ip)) :
    ∃ r, gTwiddleR f back ip ido l1 wa iw ch = ok r ∧ r.length = ido * (l1 * ip) ∧
      ∀ i < ido, ∀ k < l1, ∀ j < ip, r.getD (ixH ido l1 i k j) 0 =
        if 1 ≤ i ∧ 1 ≤ j then f.mul back (wa.getD (iw + i + (j - 1) * ido) 0) (ch.getD (ixH ido l1 i k j) 0) else ch.getD (ixH ido l1 i k j) 0 := by
  classical
  unfold gTwiddleR
  by_cases hd : ido = 1
  · rw [if_pos hd]
    refine ⟨ch, rfl, hch, fun i hi k hk j hj => ?_⟩
    rw [if_neg (by omega)]
  rw [if_neg hd]
  obtain ⟨G, hG⟩ : ∃ G : ℕ → ℕ → ℕ → ℂ, ∀ i k j, ch.getD (ixH ido l1 i k j) 0 = G i k j := ⟨_, fun _ _ _ => rfl⟩
  simp only [hG]
  let Q (proc : ℕ → ℕ → ℕ → Prop) (c : List ℂ) : Prop := c.length = ido * (l1 * ip) ∧
    ∀ i < ido, ∀ k < l1, ∀ j < ip, c.getD (ixH ido l1 i k j) 0 =
      if proc i k j then f.mul back (wa.getD (iw + i + (j - 1) * ido) 0) (G i k j) else G i k j
  have Qc : ∀ (p q : ℕ → ℕ → ℕ → Prop) (c : List ℂ), (∀ i < ido, ∀ k < l1, ∀ j < ip, p i k j ↔ q i k j) → Q p c → Q q c := by
    rintro p q c hpq ⟨a, b⟩
    refine ⟨a, fun i hi k hk j hj => ?_⟩
    rw [b i hi k hk j hj]
    by_cases hp : p i k j
    · rw [if_pos hp, if_pos ((hpq i hi k hk j hj).mp hp)]
    · rw [if_neg hp, if_neg (fun h => hp ((hpq i hi k hk j hj).mpr h))]
  obtain ⟨r, hr, g1, g2⟩ := forN_inv (ip - 1) (fun j0 ch => forN l1 (fun k ch => forN (ido - 1) (fun i0 ch => do
    let t ← rd ch (ixH ido l1 (i0 + 1) k (j0 + 1) : ℤ)
    let w ← rd wa ((iw + (j0 * ido + (i0 + 1)) : ℕ) : ℤ)
    wr ch (ixH ido l1 (i0 + 1) k (j0 + 1) : ℤ) (f.mul back w t)) ch) ch) ch
    (fun J c => Q (fun i _ j => 1 ≤ i ∧ 1 ≤ j ∧ j ≤ J) c)
    ⟨hch, fun i hi k hk j hj => by rw [if_neg (by omega)]; exact hG i k j⟩
    (by
      intro J c hJ hQ
      obtain ⟨r, hr, hQ'⟩ := forN_inv l1 (fun k ch => forN (ido - 1) (fun i0 ch => do
        let t ← rd ch (ixH ido l1 (i0 + 1) k (J + 1) : ℤ)
        let w ← rd wa ((iw + (J * ido + (i0 + 1)) : ℕ) : ℤ)
        wr ch (ixH ido l1 (i0 + 1) k (J + 1) : ℤ) (f.mul back w t)) ch) c
        (fun K c => Q (fun i k j => 1 ≤ i ∧ 1 ≤ j ∧ (j ≤ J ∨ j = J + 1 ∧ k < K)) c)
        (Qc _ _ _ (fun i hi k hk j hj => by omega) hQ)
        (by
          intro K c hK hQ
          obtain ⟨r, hr, hQ'⟩ := forN_inv (ido - 1) (fun i0 ch => do
            let t ← rd ch (ixH ido l1 (i0 + 1) K (J + 1) : ℤ)
            let w ← rd wa ((iw + (J * ido + (i0 + 1)) : ℕ) : ℤ)
            wr ch (ixH ido l1 (i0 + 1) K (J + 1) : ℤ) (f.mul back w t)) c
            (fun I c => Q (fun i k j => 1 ≤ i ∧ 1 ≤ j ∧ (j ≤ J ∨ j = J + 1 ∧ (k < K ∨ k = K ∧ i ≤ I))) c)
            (Qc _ _ _ (fun i hi k hk j hj => by omega) hQ)
            (by
              rintro I c hI ⟨q1, q2⟩
              have hlt := ixH_lt (ido := ido) (l1 := l1) (ip := ip) (i := I + 1) (k := K) (j := J + 1) (by omega) hK (by omega)
              have hb : (J + 1) * ido ≤ (ip - 1) * ido := Nat.mul_le_mul_right _ (by omega)
              rw [add_mul] at hb
              have q := q2 (I + 1) (by omega) K hK (J + 1) (by omega)
              rw [if_neg (by omega)] at q
              rw [rdD (by omega), ok_bind, rdD (by omega), ok_bind, wr_nat _ (by omega), q,
                show iw + (J * ido + (I + 1)) = iw + (I + 1) + (J + 1 - 1) * ido by rw [Nat.add_sub_cancel]; omega]
              refine ⟨_, rfl, by simpa using q1, fun i hi k hk j hj => ?_⟩
              by_cases e : i = I + 1 ∧ k = K ∧ j = J + 1
              · obtain ⟨rfl, rfl, rfl⟩ := e
                rw [getD_set_self _ (by omega), if_pos (by omega)]
              · rw [getD_set_ne _ (fun h => e (by
                  obtain ⟨a, b, c⟩ := ixH_inj (by omega) hi hK hk h; exact ⟨a.symm, b.symm, c.symm⟩)), q2 i hi k hk j hj]
                by_cases hp : 1 ≤ i ∧ 1 ≤ j ∧ (j ≤ J ∨ j = J + 1 ∧ (k < K ∨ k = K ∧ i ≤ I))
                · rw [if_pos hp, if_pos (by omega)]
                · rw [if_neg hp, if_neg (by omega)])
          exact ⟨r, hr, Qc _ _ _ (fun i hi k hk j hj => by omega) hQ'⟩)
      exact ⟨r, hr, Qc _ _ _ (fun i hi k hk j hj => by omega) hQ'⟩)
  refine ⟨r, hr, g1, fun i hi k hk j hj => ?_⟩
  rw [g2 i hi k hk j hj]
  by_cases hp : 1 ≤ i ∧ 1 ≤ j
  · rw [if_pos (by omega), if_pos hp]
  · rw [if_neg (by omega), if_neg hp]

/-- The entries of the twiddle table, to accuracy `tabErr`. -/
structure TabRowR (t : ℝ) (n : ℕ) (wa : List ℂ) (l1 ip ido iw : ℕ) : Prop where
  len : iw + (ip - 1) * ido ≤ wa.length
  tw : ∀ j, 1 ≤ j → j < ip → ∀ i < ido, (i ≠ 0 ∨ ip ≤ 6) → ‖wa.getD (iw + i + (j - 1) * ido) 0 - zeta n (j * l1 * i)‖ ≤ t
  root : 6 < ip → ∀ j, 1 ≤ j → j < ip → ‖wa.getD (iw + (j - 1) * ido) 0 - zeta ip j‖ ≤ t

theorem norm_dft_le (back : Bool) (ip j : ℕ) (g : ℕ → ℂ) (Q : ℕ → ℝ) (h : ∀ m < ip, ‖g m‖ ≤ Q m) :
    ‖∑ m ∈ range ip, zeta ip (sg back * (m * j)) * g m‖ ≤ ∑ m ∈ range ip, Q m := by
  refine (norm_sum_le _ _).trans (sum_le_sum fun m hm => ?_)
  rw [norm_mul, norm_zeta, one_mul]
  exact h m (mem_range.mp hm)

section
variable {f : FA} {u κ : ℝ} (A : FAcc f u κ)
include A

/-- The errors of the inputs of a butterfly are not amplified beyond their sum. -/
theorem bfly_comp (back : Bool) {k e m ip j : ℕ} (hm : k + 2 * e ≤ m) {r : ℂ} {v V : ℕ → ℂ} {Q : ℕ → ℝ}
    (hv : ∀ m < ip, Near (rho u κ ^ k) (v m) (V m) (Q m))
    (hr : Near (rho u κ ^ e) r (dftAt back ip ((List.range ip).map v) j) (2 * ∑ m ∈ range ip, ‖((List.range ip).map v).getD m 0‖)) :
    Near (rho u κ ^ m) r (∑ m ∈ range ip, zeta ip (sg back * (m * j)) * V m) (∑ m ∈ range ip, Q m) := by
  rw [dftAt_col] at hr
  have hs : ∑ m ∈ range ip, ‖((List.range ip).map v).getD m 0‖ = ∑ m ∈ range ip, ‖v m‖ :=
    sum_congr rfl fun m hm => by rw [getD_map_range _ _ (mem_range.mp hm)]
  rw [hs] at hr
  have hG := hr.one_le
  have hK : 1 ≤ rho u κ ^ k := one_le_pow₀ A.rho1
  have hQ0 : 0 ≤ ∑ m ∈ range ip, Q m := sum_nonneg fun m hm => (hv m (mem_range.mp hm)).nonneg
  have hvs : ∑ m ∈ range ip, ‖v m‖ ≤ rho u κ ^ k * ∑ m ∈ range ip, Q m := by
    rw [mul_sum]; exact sum_le_sum fun m hm => (hv m (mem_range.mp hm)).norm_le
  have hd : ‖∑ m ∈ range ip, zeta ip (sg back * (m * j)) * v m - ∑ m ∈ range ip, zeta ip (sg back * (m * j)) * V m‖ ≤
      (rho u κ ^ k - 1) * ∑ m ∈ range ip, Q m := by
    rw [← sum_sub_distrib]
    simp only [← mul_sub]
    rw [mul_sum]
    exact norm_dft_le back ip j (fun m => v m - V m) (fun m => (rho u κ ^ k - 1) * Q m) fun m hm => (hv m hm).err
  refine nearP A hm ⟨one_le_pow₀ A.rho1, ?_, norm_dft_le back ip j V Q fun m hm => (hv m hm).bound⟩
  have h1 := hr.err
  have h2 : (rho u κ ^ e - 1) * (2 * ∑ m ∈ range ip, ‖v m‖) ≤ (rho u κ ^ e - 1) * (2 * (rho u κ ^ k * ∑ m ∈ range ip, Q m)) :=
    mul_le_mul_of_nonneg_left (by linarith) (by linarith)
  have tri : ‖r - ∑ m ∈ range ip, zeta ip (sg back * (m * j)) * V m‖ ≤ ‖r - ∑ m ∈ range ip, zeta ip (sg back * (m * j)) * v m‖ +
      ‖∑ m ∈ range ip, zeta ip (sg back * (m * j)) * v m - ∑ m ∈ range ip, zeta ip (sg back * (m * j)) * V m‖ := by
    simpa using norm_add_le (r - ∑ m ∈ range ip, zeta ip (sg back * (m * j)) * v m) (∑ m ∈ range ip, zeta ip (sg back * (m * j)) * v m - ∑ m ∈ range ip, zeta ip (sg back * (m * j)) * V m)
  refine tri.trans ((add_le_add (h1.trans h2) hd).trans ?_)
  have key : (rho u κ ^ e - 1) * (2 * rho u κ ^ k) + (rho u κ ^ k - 1) ≤ rho u κ ^ (k + 2 * e) - 1 := by
    rw [pow_add, pow_mul', pow_two]
    nlinarith [mul_nonneg (zero_le_one.trans hK) (mul_self_nonneg (rho u κ ^ e - 1))]
  calc _ = ((rho u κ ^ e - 1) * (2 * rho u κ ^ k) + (rho u κ ^ k - 1)) * ∑ m ∈ range ip, Q m := by ring
    _ ≤ _ := mul_le_mul_of_nonneg_right key hQ0

theorem passSR_spec (back : Bool) {n ip ido l1 iw : ℕ} (wa cc yy : List ℂ) (Q : ℕ → ℝ) (k0 : ℕ) (h2 : 2 ≤ ip) (h6 : ip ≤ 6)
    (ht : TabRowR (tabErr u κ) n wa l1 ip ido iw) (hcc : cc.length = ido * (l1 * ip))
    (hin : ∀ x < ido * (l1 * ip), Near (rho u κ ^ k0) (cc.getD x 0) (yy.getD x 0) (Q x)) :
    ∃ r, (∀ ch : List ℂ, ch.length = ido * (l1 * ip) → passSR f back ip ido l1 wa iw cc ch = ok r) ∧ r.length = ido * (l1 * ip) ∧
      ∀ i < ido, ∀ k < l1, ∀ j < ip, Near (rho u κ ^ (k0 + (ip + 11))) (r.getD (ixH ido l1 i k j) 0) (passVal back n ip ido l1 yy i k j)
        (∑ m ∈ range ip, Q (ixC ido ip i m k)) := by
  have hb : ∀ i k, ∃ r, bfR f back ((List.range ip).map (fun j => cc.getD (ixC ido ip i j k) 0)) = ok r ∧ r.length = ip ∧ ∀ j < ip,
      Near (rho u κ ^ 5) (r.getD j 0) (dftAt back ip ((List.range ip).map (fun j => cc.getD (ixC ido ip i j k) 0)) j)
        (2 * ∑ m ∈ range ip, ‖((List.range ip).map (fun j => cc.getD (ixC ido ip i j k) 0)).getD m 0‖) := by
    intro i k
    have := bfR_spec A back ((List.range ip).map (fun j => cc.getD (ixC ido ip i j k) 0)) (by simpa using h2) (by simpa using h6)
    simpa using this
  choose U hU hUl hUn using hb
  have main : ∀ ch : List ℂ, ch.length = ido * (l1 * ip) → ∃ r, passSR f back ip ido l1 wa iw cc ch = ok r ∧ r.length = ido * (l1 * ip) ∧
      ∀ i < ido, ∀ k < l1, ∀ j < ip, r.getD (ixH ido l1 i k j) 0 = colValR f back (decide (ido ≠ 1)) ido i wa iw (U i k) j := by
    intro ch hch
    unfold passSR
    apply colLoop ip ido l1 _ _ ch hch
    intro i hi k hk c hc
    rw [readCol_spec hi hk cc hcc, ok_bind, hU, ok_bind]
    exact writeColR_spec f back (decide (ido ≠ 1)) (k := k) hi hk wa iw (U i k) c (hUl i k) (fun _ => ht.len) hc
  obtain ⟨r, hr, hrl, hrv⟩ := main (List.replicate (ido * (l1 * ip)) 0) (by simp)
  refine ⟨r, fun ch hch => ?_, hrl, fun i hi k hk j hj => ?_⟩
  · obtain ⟨r', hr', hrl', hrv'⟩ := main ch hch
    rw [hr', ext_ixH hrl' hrl fun i hi k hk j hj => by rw [hrv' i hi k hk j hj, hrv i hi k hk j hj]]
  rw [hrv i hi k hk j hj]
  have hcomp : Near (rho u κ ^ (k0 + 10)) ((U i k).getD j 0) (∑ m ∈ range ip, zeta ip (sg back * (m * j)) * yy.getD (ixC ido ip i m k) 0)
      (∑ m ∈ range ip, Q (ixC ido ip i m k)) :=
    bfly_comp A back (k := k0) (e := 5) (by omega) (fun m hm => hin _ (ixC_lt hi hk hm)) (hUn i k j hj)
  unfold colValR passVal
  by_cases hj0 : j = 0
  · subst hj0
    rw [if_neg (by simp)]
    simpa using nearP A (m := k0 + (ip + 11)) (by omega) hcomp
  by_cases hd : ido = 1
  · have : i = 0 := by omega
    subst hd this
    rw [if_neg (by simp)]
    simpa using nearP A (m := k0 + (ip + 11)) (by omega) hcomp
  rw [if_pos (by simp [hj0, hd])]
  have := mul_step A back (m := k0 + (ip + 11)) (by omega) (ht.tw j (by omega) hj i hi (Or.inr h6)) (norm_zeta _ _).le hcomp
  rwa [mulpm_zeta] at this

theorem passGR_spec (back : Bool) {n ip ido l1 iw : ℕ} (wa cc yy : List ℂ) (Q : ℕ → ℝ) (k0 : ℕ) (h7 : 6 < ip) (hp : Nat.Prime ip) (hido : 1 ≤ ido)
    (ht : TabRowR (tabErr u κ) n wa l1 ip ido iw) (hcc : cc.length = ido * (l1 * ip))
    (hin : ∀ x < ido * (l1 * ip), Near (rho u κ ^ k0) (cc.getD x 0) (yy.getD x 0) (Q x)) :
    ∃ r, (∀ ch : List ℂ, ch.length = ido * (l1 * ip) → passGR f back ip ido l1 wa iw cc ch = ok r) ∧ r.length = ido * (l1 * ip) ∧
      ∀ i < ido, ∀ k < l1, ∀ j < ip, Near (rho u κ ^ (k0 + (ip + 11))) (r.getD (ixH ido l1 i k j) 0) (passVal back n ip ido l1 yy i k j)
        (∑ m ∈ range ip, Q (ixC ido ip i m k)) := by
  obtain ⟨h, rfl⟩ : ∃ h, ip = 2 * h + 1 := by
    have := hp.eq_two_or_odd'
    rcases this with e | ⟨h, e⟩
    · omega
    · exact ⟨h, e⟩
  have hwal : (List.range (2 * h + 1 - 1)).mapM (fun i : ℕ => rd wa ((iw + ido * i : ℕ) : ℤ)) =
      ok ((List.range (2 * h)).map (fun i => wa.getD (iw + ido * i) 0)) := by
    rw [Nat.add_sub_cancel]
    apply mapM_ok
    intro i hi
    rw [List.mem_range] at hi
    apply rdD
    have hl := ht.len
    rw [Nat.add_sub_cancel] at hl
    have : ido * (i + 1) ≤ ido * (2 * h) := Nat.mul_le_mul_left _ hi
    rw [mul_comm (2 * h) ido] at hl
    rw [mul_add] at this
    omega
  have hb : ∀ i k, ∃ r, bfgR f back (2 * h + 1) ((List.range (2 * h)).map (fun i => wa.getD (iw + ido * i) 0))
      ((List.range (2 * h + 1)).map (fun j => cc.getD (ixC ido (2 * h + 1) i j k) 0)) = ok r ∧ r.length = 2 * h + 1 ∧ ∀ j < 2 * h + 1,
      Near (rho u κ ^ (h + 3)) (r.getD j 0) (dftAt back (2 * h + 1) ((List.range (2 * h + 1)).map (fun j => cc.getD (ixC ido (2 * h + 1) i j k) 0)) j)
        (2 * ∑ m ∈ range (2 * h + 1), ‖((List.range (2 * h + 1)).map (fun j => cc.getD (ixC ido (2 * h + 1) i j k) 0)).getD m 0‖) := by
    intro i k
    exact bfgR_spec A back h (by omega) hp _ _ (by simp) (by simp)
      (by
        intro i hi
        rw [getD_map_range _ _ hi, mul_comm ido i]
        have := ht.root h7 (i + 1) (by omega) (by omega)
        rwa [Nat.add_sub_cancel] at this)
  choose U hU hUl hUn using hb
  have main : ∀ ch : List ℂ, ch.length = ido * (l1 * (2 * h + 1)) → ∃ r, passGR f back (2 * h + 1) ido l1 wa iw cc ch = ok r ∧
      r.length = ido * (l1 * (2 * h + 1)) ∧
      ∀ i < ido, ∀ k < l1, ∀ j < 2 * h + 1, r.getD (ixH ido l1 i k j) 0 =
        if 1 ≤ i ∧ 1 ≤ j then f.mul back (wa.getD (iw + i + (j - 1) * ido) 0) ((U i k).getD j 0) else (U i k).getD j 0 := by
    intro ch hch
    unfold passGR
    rw [hwal, ok_bind]
    obtain ⟨c, hr, c1, c2⟩ := colLoop (2 * h + 1) ido l1 (fun i k ch => do
        let v ← readCol (2 * h + 1) ido i k cc
        let u ← bfgR f back (2 * h + 1) ((List.range (2 * h)).map (fun i => wa.getD (iw + ido * i) 0)) v
        writeColR f back false (2 * h + 1) ido l1 i k wa iw u ch)
      (fun i k j => (U i k).getD j 0) ch hch
      (by
        intro i hi k hk c hc
        rw [readCol_spec hi hk cc hcc, ok_bind, hU, ok_bind]
        obtain ⟨c', hr, g1, g2, g3⟩ := writeColR_spec f back false (k := k) hi hk wa iw (U i k) c (hUl i k) (by simp) hc
        refine ⟨c', hr, g1, fun j hj => ?_, g3⟩
        rw [g2 j hj]
        unfold colValR
        rw [if_neg (by simp)])
    rw [hr, ok_bind]
    obtain ⟨r, hr, r1, r2⟩ := gTwiddleR_spec f back wa c ht.len c1
    refine ⟨r, hr, r1, fun i hi k hk j hj => ?_⟩
    rw [r2 i hi k hk j hj, c2 i hi k hk j hj]
  obtain ⟨r, hr, hrl, hrv⟩ := main (List.replicate (ido * (l1 * (2 * h + 1))) 0) (by simp)
  refine ⟨r, fun ch hch => ?_, hrl, fun i hi k hk j hj => ?_⟩
  · obtain ⟨r', hr', hrl', hrv'⟩ := main ch hch
    rw [hr', ext_ixH hrl' hrl fun i hi k hk j hj => by rw [hrv' i hi k hk j hj, hrv i hi k hk j hj]]
  rw [hrv i hi k hk j hj]
  have hcomp : Near (rho u κ ^ (k0 + 2 * (h + 3))) ((U i k).getD j 0)
      (∑ m ∈ range (2 * h + 1), zeta (2 * h + 1) (sg back * (m * j)) * yy.getD (ixC ido (2 * h + 1) i m k) 0)
      (∑ m ∈ range (2 * h + 1), Q (ixC ido (2 * h + 1) i m k)) :=
    bfly_comp A back (k := k0) (e := h + 3) le_rfl (fun m hm => hin _ (ixC_lt hi hk hm)) (hUn i k j hj)
  unfold passVal
  by_cases hc : 1 ≤ i ∧ 1 ≤ j
  · rw [if_pos hc]
    have := mul_step A back (m := k0 + (2 * h + 1 + 11)) (by omega) (ht.tw j (by omega) hj i hi (Or.inl (by omega))) (norm_zeta _ _).le hcomp
    rwa [mulpm_zeta] at this
  · rw [if_neg hc]
    have : i = 0 ∨ j = 0 := by omega
    have e : zeta n (sg back * (j * l1 * i)) = 1 := by rcases this with rfl | rfl <;> simp
    rw [e, one_mul]
    exact nearP A (by omega) hcomp

end

/-- The table and the remaining factors. -/
def TabOkR (t : ℝ) (n : ℕ) (wa : List ℂ) : ℕ → ℕ → List ℕ → Prop
  | l1, _, [] => l1 = n
  | l1, iw, ip :: fac => GoodFac ip ∧ (∃ ido, n = ido * (l1 * ip) ∧ TabRowR t n wa l1 ip ido iw) ∧
      TabOkR t n wa (l1 * ip) (iw + (ip - 1) * (n / (l1 * ip))) fac

/-- Number of roundings charged to the passes. -/
def facExp (fac : List ℕ) : ℕ := (fac.map (· + 11)).sum

/-- Sum of the magnitudes of the inputs of a partial transform. -/
noncomputable def partQ (l1 N1 : ℕ) (x : List ℂ) (a : ℕ) : ℝ := ∑ q ∈ range l1, ‖x.getD (a + N1 * q) 0‖

theorem sum_blocksR (ip l1 : ℕ) (f : ℕ → ℝ) : ∑ q ∈ range (l1 * ip), f q = ∑ m ∈ range ip, ∑ q ∈ range l1, f (m + ip * q) := by
  rw [sum_comm]
  induction l1 with
  | zero => simp
  | succ l ih => rw [add_mul, one_mul, sum_range_add, ih, sum_range_succ]; congr 1; apply sum_congr rfl; intro m _; congr 1; ring

section
variable {f : FA} {u κ : ℝ} (A : FAcc f u κ)
include A

theorem cfftStepR_spec (back : Bool) {n : ℕ} (h0 : n ≠ 0) (wa x : List ℂ) (l1 iw : ℕ) (p1 : List ℂ) (k0 ip ido : ℕ) (hg : GoodFac ip)
    (hn : n = ido * (l1 * ip)) (ht : TabRowR (tabErr u κ) n wa l1 ip ido iw) (h1 : p1.length = n)
    (hp : ∀ a < ido * ip, ∀ k < l1, Near (rho u κ ^ k0) (p1.getD (a + ido * ip * k) 0) (part back n l1 (ido * ip) x a k) (partQ l1 (ido * ip) x a)) :
    ∃ r, (∀ p2 : List ℂ, p2.length = n → cfftStepR f back n wa ⟨l1, iw, p1, p2⟩ ip = ok ⟨l1 * ip, iw + (ip - 1) * (n / (l1 * ip)), r, p1⟩) ∧
      r.length = n ∧
      ∀ a < ido, ∀ k < l1 * ip, Near (rho u κ ^ (k0 + (ip + 11))) (r.getD (a + ido * k) 0) (part back n (l1 * ip) ido x a k) (partQ (l1 * ip) ido x a) := by
  have hpos : 0 < l1 * ip := Nat.pos_of_ne_zero (by rintro h; apply h0; rw [hn, h, mul_zero])
  have hido0 : 1 ≤ ido := Nat.pos_of_ne_zero (by rintro h; apply h0; rw [hn, h, zero_mul])
  have hido : n / (l1 * ip) = ido := by rw [hn]; exact Nat.mul_div_cancel _ hpos
  have hip : 0 < ip := Nat.pos_of_ne_zero (by rintro rfl; simp at hpos)
  have hii : 0 < ido * ip := Nat.mul_pos hido0 hip
  have nn : n = ido * ip * l1 := by rw [hn]; ring
  obtain ⟨yy, hyy⟩ : ∃ yy : List ℂ, ∀ a < ido * ip, ∀ k < l1, yy.getD (a + ido * ip * k) 0 = part back n l1 (ido * ip) x a k := by
    refine ⟨(List.range n).map fun t => part back n l1 (ido * ip) x (t % (ido * ip)) (t / (ido * ip)), fun a ha k hk => ?_⟩
    have hlt : a + ido * ip * k < n := by
      have : ido * ip * (k + 1) ≤ ido * ip * l1 := Nat.mul_le_mul_left _ hk
      rw [mul_add] at this; omega
    rw [getD_map_range _ _ hlt, Nat.add_mul_mod_self_left, Nat.mod_eq_of_lt ha, Nat.add_mul_div_left _ _ hii, Nat.div_eq_of_lt ha, zero_add]
  have hin : ∀ t < ido * (l1 * ip), Near (rho u κ ^ k0) (p1.getD t 0) (yy.getD t 0) (partQ l1 (ido * ip) x (t % (ido * ip))) := by
    intro t htl
    have hm : t % (ido * ip) < ido * ip := Nat.mod_lt _ hii
    have hd : t / (ido * ip) < l1 := Nat.div_lt_of_lt_mul (by rw [← nn, hn]; exact htl)
    have a := hp _ hm _ hd
    have b := hyy _ hm _ hd
    rw [Nat.mod_add_div] at a b
    rw [b]; exact a
  have hpass : ∃ r, (∀ p2 : List ℂ, p2.length = ido * (l1 * ip) → passR f back ip ido l1 wa iw p1 p2 = ok r) ∧
      r.length = ido * (l1 * ip) ∧ ∀ i < ido, ∀ k < l1, ∀ j < ip, Near (rho u κ ^ (k0 + (ip + 11))) (r.getD (ixH ido l1 i k j) 0) (passVal back n ip ido l1 yy i k j)
        (∑ m ∈ range ip, partQ l1 (ido * ip) x (ixC ido ip i m k % (ido * ip))) := by
    unfold passR
    rcases hg with ⟨a, b⟩ | ⟨a, b⟩
    · simp only [if_pos (show 2 ≤ ip ∧ ip ≤ 6 from ⟨a, b⟩)]
      exact passSR_spec A back wa p1 yy _ k0 a b ht (by rw [h1]; exact hn) hin
    · simp only [if_neg (show ¬ (2 ≤ ip ∧ ip ≤ 6) by omega)]
      exact passGR_spec A back wa p1 yy _ k0 a b hido0 ht (by rw [h1]; exact hn) hin
  obtain ⟨r, hr, hrl, hrv⟩ := hpass
  refine ⟨r, fun p2 h2 => ?_, by rw [hrl]; exact hn.symm, fun a ha k hk => ?_⟩
  · unfold cfftStepR
    dsimp only
    rw [mul_comm ip l1, hido, hr p2 (by omega), ok_bind]
  · have hl1 : 0 < l1 := Nat.pos_of_ne_zero (by rintro h; rw [h, zero_mul] at hpos; omega)
    have hm : k % l1 < l1 := Nat.mod_lt _ hl1
    have hd : k / l1 < ip := Nat.div_lt_of_lt_mul hk
    have := hrv a ha (k % l1) hm (k / l1) hd
    unfold ixH at this
    rw [Nat.mod_add_div, part_step back hn h0 x yy hyy ha hm, Nat.mod_add_div] at this
    have e : ∑ m ∈ range ip, partQ l1 (ido * ip) x (ixC ido ip a m (k % l1) % (ido * ip)) = partQ (l1 * ip) ido x a := by
      unfold partQ
      rw [sum_blocksR]
      apply sum_congr rfl
      intro m hm
      rw [mem_range] at hm
      have : a + ido * m < ido * ip := by
        have : ido * (m + 1) ≤ ido * ip := Nat.mul_le_mul_left _ hm
        rw [mul_add] at this; omega
      have e : ixC ido ip a m (k % l1) % (ido * ip) = a + ido * m := by
        unfold ixC
        rw [show a + ido * (m + ip * (k % l1)) = (a + ido * m) + ido * ip * (k % l1) by ring, Nat.add_mul_mod_self_left, Nat.mod_eq_of_lt this]
      rw [e]
      apply sum_congr rfl
      intro q _
      congr 2; ring
    rwa [e] at this

theorem cfft_loopR (back : Bool) {n : ℕ} (h0 : n ≠ 0) (wa x : List ℂ) (fac : List ℕ) : ∀ (l1 iw : ℕ) (p1 : List ℂ) (k0 N1 : ℕ),
    TabOkR (tabErr u κ) n wa l1 iw fac →
    n = N1 * l1 → p1.length = n →
    (∀ a < N1, ∀ k < l1, Near (rho u κ ^ k0) (p1.getD (a + N1 * k) 0) (part back n l1 N1 x a k) (partQ l1 N1 x a)) →
    ∃ r, r.length = n ∧ (∀ p2 : List ℂ, p2.length = n → ∃ t, foldRes (cfftStepR f back n wa) ⟨l1, iw, p1, p2⟩ fac = ok t ∧ t.p1 = r ∧ t.p2.length = n) ∧
      ∀ k < n, Near (rho u κ ^ (k0 + facExp fac)) (r.getD k 0) (part back n n 1 x 0 k) (partQ n 1 x 0) := by
  induction fac with
  | nil =>
    intro l1 iw p1 k0 N1 ht hN h1 hp
    have hl : l1 = n := ht
    have hN1 : N1 = 1 := by rw [hl] at hN; exact Nat.eq_of_mul_eq_mul_right (Nat.pos_of_ne_zero h0) (by omega)
    subst hN1
    refine ⟨p1, h1, fun p2 h2 => ⟨_, rfl, rfl, h2⟩, fun k hk => ?_⟩
    have := hp 0 (by omega) k (by omega)
    rw [hl] at this
    rwa [zero_add, one_mul] at this
  | cons ip fac ih =>
    intro l1 iw p1 k0 N1 ht hN h1 hp
    obtain ⟨hg, ⟨ido, hn, hrow⟩, hrest⟩ := ht
    have hl1 : 0 < l1 := Nat.pos_of_ne_zero (by rintro h; apply h0; rw [hN, h, mul_zero])
    have hN1 : N1 = ido * ip := Nat.eq_of_mul_eq_mul_right hl1 (by rw [← hN, hn]; ring)
    subst hN1
    obtain ⟨r, hr, hrl, hrv⟩ := cfftStepR_spec A back h0 wa x l1 iw p1 k0 ip ido hg hn hrow h1 hp
    obtain ⟨r', hrl', hr', hrv'⟩ := ih (l1 * ip) (iw + (ip - 1) * (n / (l1 * ip))) r (k0 + (ip + 11)) ido hrest hn hrl hrv
    refine ⟨r', hrl', fun p2 h2 => ?_, fun k hk => ?_⟩
    · rw [foldRes_cons, hr p2 h2]
      exact hr' p1 h1
    · have := hrv' k hk
      rwa [show k0 + (ip + 11) + facExp fac = k0 + facExp (ip :: fac) by simp [facExp]; ring] at this

/-- The result of `cfft1` does not depend on the scratch buffer, and is accurate. -/
theorem cfft1R_spec (back : Bool) {n : ℕ} (h0 : n ≠ 0) (c wa : List ℂ) (fac : List ℕ) (ht : TabOkR (tabErr u κ) n wa 1 0 fac)
    (hc : c.length = n) :
    ∃ r, r.length = n ∧ (∀ ch : List ℂ, ch.length = n → ∃ ch', cfft1R f back n c ch wa fac = ok (r, ch') ∧ ch'.length = n) ∧
      ∀ k < n, Near (rho u κ ^ facExp fac) (r.getD k 0) (∑ q ∈ range n, c.getD q 0 * zeta n (sg back * (k * q))) (∑ q ∈ range n, ‖c.getD q 0‖) := by
  obtain ⟨r, h1, h2, h3⟩ := cfft_loopR A back h0 wa c fac 1 0 c 0 n ht (by simp) hc (by
    intro a ha k hk
    obtain rfl : k = 0 := by omega
    unfold part partQ
    simpa using near0 (u := u) (κ := κ) (c.getD a 0))
  refine ⟨r, h1, fun ch hch => ?_, fun k hk => ?_⟩
  · obtain ⟨t, ht, e, l⟩ := h2 ch hch
    refine ⟨if fac.length % 2 = 0 then t.p2 else t.p1, ?_, ?_⟩
    · unfold cfft1R; rw [ht, ok_bind, e]
    · split_ifs
      · exact l
      · rw [e]; exact h1
  · have := h3 k hk
    unfold part partQ at this
    simpa using this

end
end Verif.Fft
