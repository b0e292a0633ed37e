import Verif.Fft.Stage

/-! # Factorisation and twiddle table -/

namespace Verif.Fft
open Verif Res Finset

/-- The trial divisor at position `j`. -/
def tryAt (j : ℕ) : ℕ :=
  if j = 1 then 4 else if j = 2 then 6 else if j = 3 then 3 else if j = 4 then 2 else 2 * j - 5

theorem nextTry_tryAt (j : ℕ) (h : 1 ≤ j) : nextTry (j + 1) (tryAt j) = tryAt (j + 1) := by
  unfold nextTry tryAt
  split_ifs <;> omega

/-- Shape of the list of factors that bounds its length. -/
def PF (fac : List ℕ) : Prop := (∀ f ∈ fac, 3 ≤ f) ∨ ∃ l, fac = 2 :: l ∧ ∀ f ∈ l, 4 ≤ f

theorem pow_le_prod (b : ℕ) (l : List ℕ) (h : ∀ f ∈ l, b ≤ f) : b ^ l.length ≤ l.prod := by
  induction l with
  | nil => simp
  | cons x xs ih =>
    rw [List.length_cons, pow_succ, List.prod_cons, mul_comm]
    exact Nat.mul_le_mul (h x (by simp)) (ih (fun f hf => h f (by simp [hf])))

theorem PF_length {fac : List ℕ} (h : PF fac) (hp : fac.prod < 3 ^ 14) : fac.length ≤ 13 := by
  by_contra hc
  have hc' : 14 ≤ fac.length := by omega
  rcases h with h | ⟨l, rfl, h⟩
  · have h1 := pow_le_prod 3 fac h
    have h2 : 3 ^ 14 ≤ 3 ^ fac.length := Nat.pow_le_pow_right (by norm_num) hc'
    omega
  · have h1 := pow_le_prod 4 l h
    simp only [List.length_cons, List.prod_cons] at hc' hp
    have h2 : 4 ^ 13 ≤ 4 ^ l.length := Nat.pow_le_pow_right (by norm_num) (by omega)
    norm_num at h2 hp
    omega

/-- Invariant of the loop of `factorize`. -/
structure FInv (n j nl : ℕ) (fac : List ℕ) : Prop where
  j1 : 1 ≤ j
  nl2 : 2 ≤ nl
  prod : fac.prod * nl = n
  good : ∀ f ∈ fac, GoodFac f
  no4 : 2 ≤ j → ¬ 4 ∣ nl
  no6 : 3 ≤ j → ¬ 6 ∣ nl
  no3 : 4 ≤ j → ¬ 3 ∣ nl
  nop : 5 ≤ j → ∀ p, Nat.Prime p → p < tryAt j → ¬ p ∣ nl
  pf : PF fac
  ge3 : j ≤ 3 → ∀ f ∈ fac, 3 ≤ f
  ev : j ≤ 4 → 2 ∣ nl → ∀ f ∈ fac, f = 4

theorem FInv.le {n j nl : ℕ} {fac : List ℕ} (h : FInv n j nl fac) : j ≤ 4 ∨ tryAt j ≤ nl := by
  by_cases hj : j ≤ 4
  · exact Or.inl hj
  right
  by_contra hc
  obtain ⟨p, hp, hd⟩ := Nat.exists_prime_and_dvd (show nl ≠ 1 by have := h.nl2; omega)
  exact h.nop (by omega) p hp (by have := Nat.le_of_dvd (by have := h.nl2; omega) hd; omega) hd

/-- Advancing to the next divisor. -/
theorem FInv.next {n j nl : ℕ} {fac : List ℕ} (h : FInv n j nl fac) (hd : ¬ tryAt j ∣ nl) : FInv n (j + 1) nl fac := by
  have h1 := h.j1
  refine ⟨by omega, h.nl2, h.prod, h.good, fun hj => ?_, fun hj => ?_, fun hj => ?_, fun hj p hp hlt hdp => ?_, h.pf,
    fun hj => h.ge3 (by omega), fun hj => h.ev (by omega)⟩
  · by_cases e : j = 1
    · subst e; exact hd
    · exact h.no4 (by omega)
  · by_cases e : j = 2
    · subst e; exact hd
    · exact h.no6 (by omega)
  · by_cases e : j = 3
    · subst e; exact hd
    · exact h.no3 (by omega)
  · by_cases e : j = 4
    · subst e
      have hp5 : p < 5 := hlt
      have : p = 2 ∨ p = 3 := by
        have := hp.two_le
        have : p ≠ 4 := by rintro rfl; revert hp; decide
        omega
      rcases this with rfl | rfl
      · exact hd hdp
      · exact h.no3 (by omega) hdp
    · have hj5 : 5 ≤ j := by omega
      have ht : tryAt j = 2 * j - 5 := by unfold tryAt; rw [if_neg (by omega), if_neg (by omega), if_neg (by omega), if_neg (by omega)]
      have ht' : tryAt (j + 1) = 2 * (j + 1) - 5 := by unfold tryAt; rw [if_neg (by omega), if_neg (by omega), if_neg (by omega), if_neg (by omega)]
      have : p < tryAt j ∨ p = tryAt j ∨ p = 2 * (j - 2) := by omega
      rcases this with c | c | c
      · exact h.nop hj5 p hp c hdp
      · exact hd (c ▸ hdp)
      · have := (Nat.prime_mul_iff.mp (c ▸ hp))
        rcases this with ⟨_, q⟩ | ⟨_, q⟩ <;> omega

/-- Taking the factor `tryAt j`. -/
theorem FInv.take {n j nl : ℕ} {fac : List ℕ} (h : FInv n j nl fac) (hd : tryAt j ∣ nl) :
    let fac' := if tryAt j = 2 ∧ fac ≠ [] then 2 :: fac else fac ++ [tryAt j]
    (nl / tryAt j ≠ 1 → FInv n j (nl / tryAt j) fac') ∧ PF fac' ∧ (∀ f ∈ fac', GoodFac f) ∧ fac'.prod * (nl / tryAt j) = n ∧
      nl / tryAt j < nl ∧ 1 ≤ nl / tryAt j := by
  intro fac'
  have h1 := h.j1
  have hnl := h.nl2
  obtain ⟨q, hq⟩ := hd
  have ht2 : 2 ≤ tryAt j := by unfold tryAt; split_ifs <;> omega
  have hqq : nl / tryAt j = q := by rw [hq]; exact Nat.mul_div_cancel_left _ (by omega)
  have hq1 : 1 ≤ q := Nat.pos_of_ne_zero (by rintro rfl; omega)
  have hgood : GoodFac (tryAt j) := by
    by_cases hj : j ≤ 5
    · left
      obtain rfl | rfl | rfl | rfl | rfl : j = 1 ∨ j = 2 ∨ j = 3 ∨ j = 4 ∨ j = 5 := by omega
      all_goals decide
    · right
      have ht : tryAt j = 2 * j - 5 := by unfold tryAt; rw [if_neg (by omega), if_neg (by omega), if_neg (by omega), if_neg (by omega)]
      refine ⟨by omega, ?_⟩
      have hm := Nat.minFac_prime (show tryAt j ≠ 1 by omega)
      have hmd : (tryAt j).minFac ∣ nl := dvd_trans (Nat.minFac_dvd _) ⟨q, hq⟩
      have : ¬ (tryAt j).minFac < tryAt j := fun hlt => h.nop (by omega) _ hm hlt hmd
      have h3 : (tryAt j).minFac = tryAt j := le_antisymm (Nat.minFac_le (by omega)) (by omega)
      rw [← h3]; exact hm
  have hmem : ∀ f ∈ fac', f = tryAt j ∨ f ∈ fac := by
    intro f hf
    simp only [fac'] at hf
    split_ifs at hf with hc
    · rcases List.mem_cons.mp hf with e | e
      · exact Or.inl (by rw [e, hc.1])
      · exact Or.inr e
    · rcases List.mem_append.mp hf with e | e
      · exact Or.inr e
      · exact Or.inl (by simpa using e)
  have hgood' : ∀ f ∈ fac', GoodFac f := fun f hf => by
    rcases hmem f hf with e | e
    · rw [e]; exact hgood
    · exact h.good f e
  have hprod : fac'.prod * q = n := by
    have : fac'.prod = fac.prod * tryAt j := by
      simp only [fac']
      split_ifs with hc
      · rw [List.prod_cons, hc.1]; ring
      · simp
    rw [this, ← h.prod, hq]; ring
  have hj4 : j = 4 → ∀ f ∈ fac, f = 4 := fun e => by
    subst e
    exact h.ev (by omega) ⟨q, hq⟩
  have hpf : PF fac' := by
    by_cases e : j = 4
    · have h4 := hj4 e
      subst e
      right
      refine ⟨fac, ?_, fun f hf => by rw [h4 f hf]⟩
      simp only [fac']
      by_cases hn : fac = []
      · subst hn; simp [tryAt]
      · rw [if_pos ⟨by decide, hn⟩]
    · have h3 : 3 ≤ tryAt j := by unfold tryAt; split_ifs <;> omega
      have hf' : fac' = fac ++ [tryAt j] := by simp only [fac']; rw [if_neg (by omega)]
      by_cases hj : j ≤ 3
      · left
        intro f hf
        rcases hmem f hf with e | e
        · omega
        · exact h.ge3 hj f e
      · have h5 : 5 ≤ tryAt j := by
          unfold tryAt; rw [if_neg (by omega), if_neg (by omega), if_neg (by omega), if_neg (by omega)]; omega
        rcases h.pf with hp | ⟨l, rfl, hl⟩
        · left
          intro f hf
          rcases hmem f hf with e | e
          · omega
          · exact hp f e
        · right
          refine ⟨l ++ [tryAt j], by rw [hf']; simp, fun f hf => ?_⟩
          rcases List.mem_append.mp hf with e | e
          · exact hl f e
          · simp at e; omega
  have hdq : ∀ m, m ∣ q → m ∣ nl := fun m hm => by rw [hq]; exact Dvd.dvd.mul_left hm _
  rw [hqq]
  refine ⟨fun hne => ⟨h1, by omega, hprod, hgood', fun hj hh => h.no4 hj (hdq _ hh), fun hj hh => h.no6 hj (hdq _ hh),
    fun hj hh => h.no3 hj (hdq _ hh), fun hj p hp hl hh => h.nop hj p hp hl (hdq _ hh), hpf, fun hj f hf => ?_, fun hj h2 f hf => ?_⟩,
    hpf, hgood', hprod, ?_, hq1⟩
  · rcases hmem f hf with e | e
    · have : 3 ≤ tryAt j := by unfold tryAt; split_ifs <;> omega
      omega
    · exact h.ge3 hj f e
  · have hfac := h.ev hj (hdq _ h2)
    obtain ⟨r, hr⟩ := h2
    have : j = 1 := by
      by_contra hc
      obtain rfl | rfl | rfl : j = 2 ∨ j = 3 ∨ j = 4 := by omega
      · exact h.no4 (by omega) ⟨3 * r, by rw [hq, hr]; simp [tryAt]; ring⟩
      · exact h.no6 (by omega) ⟨r, by rw [hq, hr]; simp [tryAt]; ring⟩
      · exact h.no4 (by omega) ⟨r, by rw [hq, hr]; simp [tryAt]; ring⟩
    subst this
    rcases hmem f hf with e | e
    · exact e
    · exact hfac f e
  · have := Nat.mul_le_mul_right q ht2; omega

theorem factLoop_spec (n : ℕ) (hn : n < 3 ^ 14) (f : ℕ) : ∀ (j nl : ℕ) (fac : List ℕ), FInv n j nl fac → 2 * nl + 10 ≤ f + j - 1 →
    ∃ r, factLoop f j (tryAt j) nl fac = ok r ∧ PF r ∧ (∀ x ∈ r, GoodFac x) ∧ r.prod = n := by
  induction f with
  | zero =>
    intro j nl fac h hf
    exfalso
    have := h.nl2
    rcases h.le with c | c
    · omega
    · unfold tryAt at c; split_ifs at c <;> omega
  | succ f ih =>
    intro j nl fac h hf
    unfold factLoop
    by_cases hd : tryAt j ∣ nl
    · rw [if_neg (by rw [not_not]; exact Nat.mod_eq_zero_of_dvd hd)]
      obtain ⟨t1, t2, t3, t4, t5, t6⟩ := h.take hd
      have hlen := PF_length t2 (by
        have : (if tryAt j = 2 ∧ fac ≠ [] then 2 :: fac else fac ++ [tryAt j]).prod * 1 ≤ _ * (nl / tryAt j) := Nat.mul_le_mul_left _ t6
        rw [t4] at this; omega)
      have hl : fac.length + 1 ≤ 13 := by split_ifs at hlen <;> simpa using hlen
      have hpush : pushFac fac (tryAt j) = ok (if tryAt j = 2 ∧ fac ≠ [] then 2 :: fac else fac ++ [tryAt j]) := by
        unfold pushFac; rw [if_neg (by omega)]
      rw [hpush, ok_bind]
      by_cases h1 : nl / tryAt j = 1
      · rw [if_pos h1]
        refine ⟨_, rfl, t2, t3, ?_⟩
        rw [h1, mul_one] at t4; exact t4
      · rw [if_neg h1]
        exact ih j _ _ (t1 h1) (by omega)
    · rw [if_pos (fun h0 => hd (Nat.dvd_of_mod_eq_zero h0)), nextTry_tryAt j h.j1]
      exact ih (j + 1) nl fac (h.next hd) (by omega)

theorem factorize_spec (n : ℕ) (h2 : 2 ≤ n) (hn : n < 3 ^ 14) :
    ∃ r, factorize n = ok r ∧ (∀ x ∈ r, GoodFac x) ∧ r.prod = n := by
  obtain ⟨r, hr, _, h3, h4⟩ := factLoop_spec n hn (2 * n + 10) 1 n []
    ⟨le_refl _, h2, by simp, by simp, by omega, by omega, by omega, by omega, Or.inl (by simp), by simp, by simp⟩ (by omega)
  exact ⟨r, hr, h3, h4⟩

/-- Sizes `3^k`, `k ≥ 14`, have more factors than fit into the work array. -/
theorem factorize_overflow (k : ℕ) (hk : 14 ≤ k) : factorize (3 ^ k) = ub "ifac overflows the work array" := by
  have hodd : 3 ^ k % 2 = 1 := by
    clear hk
    induction k with
    | zero => rfl
    | succ k ih => rw [pow_succ]; omega
  have loop : ∀ (m f a : ℕ), 3 ^ (m + 1) ≤ f → 14 ≤ a + m + 1 → a ≤ 13 →
      factLoop f 3 3 (3 ^ (m + 1)) (List.replicate a 3) = ub "ifac overflows the work array" := by
    intro m
    induction m with
    | zero =>
      intro f a hf ha hb
      obtain ⟨f, rfl⟩ : ∃ g, f = g + 1 := ⟨f - 1, (Nat.sub_add_cancel (le_trans (Nat.one_le_pow _ _ (by norm_num)) hf)).symm⟩
      obtain rfl : a = 13 := by omega
      rfl
    | succ m ih =>
      intro f a hf ha hb
      obtain ⟨f, rfl⟩ : ∃ g, f = g + 1 := ⟨f - 1, (Nat.sub_add_cancel (le_trans (Nat.one_le_pow _ _ (by norm_num)) hf)).symm⟩
      unfold factLoop
      have e : 3 ^ (m + 1 + 1) = 3 * 3 ^ (m + 1) := by rw [pow_succ]; ring
      rw [if_neg (by rw [not_not, e]; exact Nat.mul_mod_right _ _)]
      unfold pushFac
      by_cases h13 : a = 13
      · rw [if_pos (by simp; omega)]; rfl
      · rw [if_neg (by simp; omega), if_neg (by omega), ok_bind, e, Nat.mul_div_cancel_left _ (by norm_num),
          if_neg (ne_of_gt (Nat.one_lt_pow (by omega) (by norm_num))),
          show List.replicate a 3 ++ [3] = List.replicate (a + 1) 3 by rw [List.replicate_succ']]
        have hp : 0 < 3 ^ (m + 1) := by positivity
        exact ih f (a + 1) (by omega) (by omega) (by omega)
  unfold factorize
  rw [show 2 * 3 ^ k + 10 = (2 * 3 ^ k + 8) + 1 + 1 by ring]
  unfold factLoop
  rw [if_pos (by omega), show nextTry (1 + 1) 4 = 6 by rfl]
  unfold factLoop
  rw [if_pos (by omega), show nextTry (1 + 1 + 1) 6 = 3 by rfl]
  obtain ⟨m, rfl⟩ : ∃ m, k = m + 1 := ⟨k - 1, by omega⟩
  exact loop m _ 0 (by omega) (by omega) (by omega)

/-! ## table -/

theorem cis_zeta (n : ℕ) (a b : ℕ) : cis ((a : ℝ) * ((b : ℝ) * (2 * Real.pi / n))) = zeta n ((b * a : ℕ) : ℤ) := by
  rw [zeta_eq]; congr 1; push_cast; ring

/-- One row of the table: entries `is … is+ido-1`; entry `is+ido` is scratch; nothing before `is` changes. -/
theorem twRow_spec (n ip ido l1 j is : ℕ) (wa : List ℂ) (hl : is + ido < wa.length) :
    ∃ wa', twRow n ip ido l1 j (is, wa) = ok (is + ido, wa') ∧ wa'.length = wa.length ∧
      (∀ x < is, wa'.getD x 0 = wa.getD x 0) ∧
      (∀ i, 1 ≤ i → i ≤ ido → wa'.getD (is + i) 0 = zeta n ((j * l1 * i : ℕ) : ℤ)) ∧
      (ip ≤ 6 → wa'.getD is 0 = 1) ∧ (6 < ip → 1 ≤ ido → wa'.getD is 0 = zeta n ((j * l1 * ido : ℕ) : ℤ)) := by
  unfold twRow
  dsimp only
  rw [wr_nat _ (by omega), ok_bind]
  obtain ⟨w, hr, h1, h2, h3, h4⟩ := forN_inv ido (fun fi wa => wr wa ((is + (fi + 1) : ℕ) : ℤ)
      (cis (((fi + 1 : ℕ) : ℝ) * ((j : ℝ) * (l1 : ℝ) * (2 * Real.pi / n))))) (wa.set is 1)
    (fun m w => w.length = wa.length ∧ (∀ x < is, w.getD x 0 = wa.getD x 0) ∧
      (∀ i, 1 ≤ i → i ≤ m → w.getD (is + i) 0 = zeta n ((j * l1 * i : ℕ) : ℤ)) ∧ w.getD is 0 = 1)
    ⟨by simp, fun x hx => getD_set_ne _ (by omega), by omega, getD_set_self _ (by omega)⟩
    (by
      rintro m w hm ⟨h1, h2, h3, h4⟩
      rw [wr_nat _ (by omega)]
      refine ⟨_, rfl, by simpa using h1, fun x hx => ?_, fun i hi1 hi2 => ?_, ?_⟩
      · rw [getD_set_ne _ (by omega)]; exact h2 x hx
      · by_cases e : i = m + 1
        · subst e
          rw [getD_set_self _ (by omega)]
          have := cis_zeta n (m + 1) (j * l1)
          rw [← this]; congr 1; push_cast; ring
        · rw [getD_set_ne _ (by omega)]; exact h3 i hi1 (by omega)
      · rw [getD_set_ne _ (by omega)]; exact h4)
  rw [hr, ok_bind]
  by_cases h6 : ip > 6
  · rw [if_pos h6, rdD (by omega), ok_bind, wr_nat _ (by omega), ok_bind]
    refine ⟨_, rfl, by simpa using h1, fun x hx => ?_, fun i hi1 hi2 => ?_, by omega, fun _ hi => ?_⟩
    · rw [getD_set_ne _ (by omega)]; exact h2 x hx
    · rw [getD_set_ne _ (by omega)]; exact h3 i hi1 hi2
    · rw [getD_set_self _ (by omega)]; exact h3 ido hi (le_refl _)
  · rw [if_neg h6]
    exact ⟨w, rfl, h1, h2, h3, fun _ => h4, by omega⟩

theorem twStep_spec (n ip ido : ℕ) (s : IS) (hn : n = ido * (s.l1 * ip)) (h0 : n ≠ 0) (hip : 1 ≤ ip)
    (hi : s.i + (ip - 1) * ido < s.wa.length) :
    ∃ wa', twStep n s ip = ok ⟨s.l1 * ip, s.i + (ip - 1) * ido, wa'⟩ ∧ wa'.length = s.wa.length ∧
      (∀ x < s.i, wa'.getD x 0 = s.wa.getD x 0) ∧ TabRow n wa' s.l1 ip ido s.i := by
  have hpos : 0 < s.l1 * ip := Nat.pos_of_ne_zero (by rintro h; apply h0; rw [hn, h, mul_zero])
  have hido0 : 1 ≤ ido := Nat.pos_of_ne_zero (by rintro h; apply h0; rw [hn, h, zero_mul])
  have hido : n / (s.l1 * ip) = ido := by rw [hn]; exact Nat.mul_div_cancel _ hpos
  unfold twStep
  dsimp only
  rw [hido]
  obtain ⟨⟨i', w⟩, hr, g0, h1, h2, h3, h4⟩ := forN_inv (ip - 1) (fun j0 st => twRow n ip ido s.l1 (j0 + 1) st) (s.i, s.wa)
    (fun m st => st.1 = s.i + m * ido ∧ st.2.length = s.wa.length ∧ (∀ x < s.i, st.2.getD x 0 = s.wa.getD x 0) ∧
      (∀ j, 1 ≤ j → j ≤ m → ∀ i < ido, (i ≠ 0 ∨ ip ≤ 6) → st.2.getD (s.i + i + (j - 1) * ido) 0 = zeta n (j * s.l1 * i)) ∧
      (6 < ip → ∀ j, 1 ≤ j → j ≤ m → st.2.getD (s.i + (j - 1) * ido) 0 = zeta ip j))
    ⟨by simp, rfl, fun _ _ => rfl, by omega, by omega⟩
    (by
      rintro m ⟨i', w⟩ hm ⟨g0, h1, h2, h3, h4⟩
      dsimp only at g0 h1 h2 h3 h4
      subst g0
      have hb : (m + 1) * ido ≤ (ip - 1) * ido := Nat.mul_le_mul_right _ (by omega)
      rw [add_mul] at hb
      obtain ⟨w', hr, k1, k2, k3, k4, k5⟩ := twRow_spec n ip ido s.l1 (m + 1) (s.i + m * ido) w (by omega)
      refine ⟨_, hr, by dsimp only; ring, by dsimp only; omega, fun x hx => ?_, fun j hj1 hj2 i hi hc => ?_, fun h6 j hj1 hj2 => ?_⟩
      · dsimp only; rw [k2 x (by omega)]; exact h2 x hx
      · dsimp only
        by_cases e : j = m + 1
        · subst e
          rw [Nat.add_sub_cancel]
          rcases Nat.eq_zero_or_pos i with rfl | hpi
          · have := k4 (by omega)
            rw [add_zero, this]; simp
          · rw [show s.i + i + m * ido = s.i + m * ido + i by ring, k3 i hpi (by omega)]
            push_cast; rfl
        · have hjm : (j - 1 + 1) * ido ≤ m * ido := Nat.mul_le_mul_right _ (by omega)
          rw [add_mul] at hjm
          rw [k2 _ (by omega)]; exact h3 j hj1 (by omega) i hi hc
      · dsimp only
        by_cases e : j = m + 1
        · subst e
          rw [Nat.add_sub_cancel, k5 h6 hido0]
          rw [← zeta_scale (n := n) (m := s.l1 * ido) (k := ip) (by rw [hn]; ring)
            (by rintro h; apply h0; rw [hn, show ido * (s.l1 * ip) = s.l1 * ido * ip by ring, h, zero_mul])]
          congr 1; push_cast; ring
        · have hjm : (j - 1 + 1) * ido ≤ m * ido := Nat.mul_le_mul_right _ (by omega)
          rw [add_mul] at hjm
          rw [k2 _ (by omega)]; exact h4 h6 j hj1 (by omega))
  dsimp only at g0 h1 h2 h3 h4
  rw [hr, ok_bind]
  refine ⟨w, by rw [g0], h1, h2, ⟨by omega, fun j hj1 hj2 i hi hc => h3 j hj1 (by omega) i hi hc, fun h6 j hj1 hj2 => h4 h6 j hj1 (by omega)⟩⟩

theorem TabRow.mono {n l1 ip ido iw : ℕ} {wa wa' : List ℂ} (h : TabRow n wa l1 ip ido iw) (hido : 0 < ido) (hl : wa'.length = wa.length)
    (he : ∀ x < iw + (ip - 1) * ido, wa'.getD x 0 = wa.getD x 0) : TabRow n wa' l1 ip ido iw := by
  have hb : ∀ j, 1 ≤ j → j < ip → ∀ i < ido, iw + i + (j - 1) * ido < iw + (ip - 1) * ido := by
    intro j h1 h2 i hi
    have : (j - 1 + 1) * ido ≤ (ip - 1) * ido := Nat.mul_le_mul_right _ (by omega)
    rw [add_mul] at this; omega
  refine ⟨by rw [hl]; exact h.len, fun j h1 h2 i hi hc => ?_, fun h6 j h1 h2 => ?_⟩
  · rw [he _ (hb j h1 h2 i hi)]; exact h.tw j h1 h2 i hi hc
  · have := hb j h1 h2 0 hido
    rw [add_zero] at this
    rw [he _ this]; exact h.root h6 j h1 h2

theorem table_loop (n : ℕ) (h0 : n ≠ 0) (fac : List ℕ) : ∀ (s : IS) (N1 : ℕ), (∀ x ∈ fac, GoodFac x) → n = N1 * s.l1 →
    s.l1 * fac.prod = n → s.wa.length = n → s.i = n - N1 →
    ∃ t, foldRes (twStep n) s fac = ok t ∧ t.wa.length = n ∧ (∀ x < s.i, t.wa.getD x 0 = s.wa.getD x 0) ∧
      TabOk n t.wa s.l1 s.i fac := by
  induction fac with
  | nil =>
    intro s N1 _ hN hp hw hi
    exact ⟨s, rfl, hw, fun _ _ => rfl, show s.l1 = n by simpa using hp⟩
  | cons ip fac ih =>
    intro s N1 hg hN hp hw hi
    have hip : 2 ≤ ip := by
      rcases hg ip (by simp) with h | h
      · exact h.1
      · omega
    have hfp : 0 < fac.prod := Nat.pos_of_ne_zero (by rintro h; apply h0; rw [← hp, List.prod_cons, h]; ring)
    have hl1 : 0 < s.l1 := Nat.pos_of_ne_zero (by rintro h; apply h0; rw [hN, h, mul_zero])
    have hn : n = fac.prod * (s.l1 * ip) := by rw [← hp, List.prod_cons]; ring
    have hN1 : N1 = fac.prod * ip := Nat.eq_of_mul_eq_mul_right hl1 (by rw [← hN, hn]; ring)
    have hNle : N1 ≤ n := by rw [hN]; exact Nat.le_mul_of_pos_right _ hl1
    have hsub : (ip - 1) * fac.prod + fac.prod = N1 := by
      rw [hN1, Nat.sub_mul, mul_comm fac.prod ip, one_mul]
      exact Nat.sub_add_cancel (Nat.le_mul_of_pos_left _ (by omega))
    obtain ⟨w, hr, h1, h2, h3⟩ := twStep_spec n ip fac.prod s hn h0 (by omega) (by omega)
    rw [foldRes_cons, hr]
    obtain ⟨t, ht, t1, t2, t3⟩ := ih ⟨s.l1 * ip, s.i + (ip - 1) * fac.prod, w⟩ fac.prod (fun x hx => hg x (by simp [hx])) hn
      (by dsimp only; rw [hn]; ring) (by dsimp only; omega) (by dsimp only; omega)
    refine ⟨t, ht, t1, fun x hx => ?_, hg ip (by simp), ⟨fac.prod, hn, h3.mono hfp (by omega) t2⟩, ?_⟩
    · rw [t2 x (by dsimp only; omega)]; exact h2 x hx
    · have hdv : n / (s.l1 * ip) = fac.prod := by
        rw [hn]; exact Nat.mul_div_cancel _ (Nat.mul_pos hl1 (by omega))
      rw [hdv]; exact t3

theorem cffti1_spec (n : ℕ) (h2 : 2 ≤ n) (hn : n < 3 ^ 14) (wa0 : List ℂ) (hw : wa0.length = n) :
    ∃ wa fac, cffti1 n wa0 = ok (wa, fac) ∧ wa.length = n ∧ TabOk n wa 1 0 fac := by
  obtain ⟨fac, hf, hg, hp⟩ := factorize_spec n h2 hn
  obtain ⟨t, ht, t1, _, t3⟩ := table_loop n (by omega) fac ⟨1, 0, wa0⟩ n hg (by simp) (by simpa using hp) hw (by simp)
  refine ⟨t.wa, fac, ?_, t1, t3⟩
  unfold cffti1
  rw [hf, ok_bind, ht, ok_bind]

/-- A work space that fits length `n`; the contents of the scratch buffer do not matter. -/
structure WorkOk (n : ℕ) (w : Work) : Prop where
  ch : w.ch.length = n
  tab : n ≠ 1 → TabOk n w.wa 1 0 w.fac

theorem cffti_spec (n : ℕ) (h1 : 1 ≤ n) (hn : n < 3 ^ 14) (g : ℂ) : ∃ w, cffti n g = ok w ∧ WorkOk n w := by
  unfold cffti
  by_cases h : n = 1
  · rw [if_neg (by simpa using h)]
    exact ⟨_, rfl, by simp, fun h' => absurd h h'⟩
  · rw [if_pos h]
    obtain ⟨wa, fac, hr, _, ht⟩ := cffti1_spec n (by omega) hn (List.replicate n g) (by simp)
    rw [hr, ok_bind]
    exact ⟨_, rfl, by simp, fun _ => ht⟩

theorem cfft_spec (back : Bool) {n : ℕ} (h1 : 1 ≤ n) (c : List ℂ) (hc : c.length = n) (w : Work) (hw : WorkOk n w) :
    ∃ r w', cfft back n c w = ok (r, w') ∧ r.length = n ∧ WorkOk n w' ∧
      ∀ k < n, r.getD k 0 = ∑ q ∈ range n, c.getD q 0 * zeta n (sg back * (k * q)) := by
  unfold cfft
  by_cases h : n = 1
  · rw [if_neg (by simpa using h)]
    refine ⟨c, w, rfl, hc, hw, fun k hk => ?_⟩
    subst h
    obtain rfl : k = 0 := by omega
    simp
  · rw [if_pos h]
    obtain ⟨r, ch', hr, a, b, e⟩ := cfft1_spec back (by omega) c w.ch w.wa w.fac (hw.tab h) hc hw.ch
    rw [hr, ok_bind]
    exact ⟨r, _, rfl, a, ⟨b, fun h' => hw.tab h'⟩, e⟩

end Verif.Fft
