import Verif.Fft.General

/-! # The passes and the induction over the factors -/

namespace Verif.Fft
open Verif Res Finset

/-! ## index arithmetic -/

theorem ixH_lt {ido l1 ip i k j : ℕ} (hi : i < ido) (hk : k < l1) (hj : j < ip) : ixH ido l1 i k j < ido * (l1 * ip) := by
  unfold ixH
  have h1 : k + l1 * j + 1 ≤ l1 * ip := by
    have : l1 * (j + 1) ≤ l1 * ip := Nat.mul_le_mul_left _ hj
    rw [mul_add] at this; omega
  have h2 : ido * (k + l1 * j + 1) ≤ ido * (l1 * ip) := Nat.mul_le_mul_left _ h1
  rw [mul_add] at h2; omega

theorem lin_inj {m a b a' b' : ℕ} (ha : a < m) (ha' : a' < m) (h : a + m * b = a' + m * b') : a = a' ∧ b = b' := by
  have h1 : (a + m * b) % m = a := by rw [Nat.add_mul_mod_self_left, Nat.mod_eq_of_lt ha]
  have h2 : (a' + m * b') % m = a' := by rw [Nat.add_mul_mod_self_left, Nat.mod_eq_of_lt ha']
  have e : a = a' := by rw [← h1, ← h2, h]
  subst e
  exact ⟨rfl, Nat.eq_of_mul_eq_mul_left (by omega : 0 < m) (by omega)⟩

theorem ixH_inj {ido l1 i k j i' k' j' : ℕ} (hi : i < ido) (hi' : i' < ido) (hk : k < l1) (hk' : k' < l1)
    (h : ixH ido l1 i k j = ixH ido l1 i' k' j') : i = i' ∧ k = k' ∧ j = j' := by
  unfold ixH at h
  obtain ⟨e1, e2⟩ := lin_inj hi hi' h
  exact ⟨e1, lin_inj hk hk' e2⟩

theorem ixC_lt {ido l1 ip i k j : ℕ} (hi : i < ido) (hk : k < l1) (hj : j < ip) : ixC ido ip i j k < ido * (l1 * ip) := by
  have := ixH_lt (ido := ido) (l1 := ip) (ip := l1) hi hj hk
  unfold ixH at this; unfold ixC; rw [mul_comm l1 ip]; exact this

/-! ## columns -/

theorem mapM_ok {α β : Type} (f : α → Res β) (g : α → β) (l : List α) (h : ∀ x ∈ l, f x = ok (g x)) : l.mapM f = ok (l.map g) := by
  induction l with
  | nil => rfl
  | cons x xs ih =>
    rw [List.mapM_cons, h x (by simp), ok_bind, ih (fun y hy => h y (by simp [hy])), ok_bind]; rfl

theorem readCol_spec {ip ido l1 i k : ℕ} (hi : i < ido) (hk : k < l1) (cc : List ℂ) (hc : cc.length = ido * (l1 * ip)) :
    readCol ip ido i k cc = ok ((List.range ip).map (fun j => cc.getD (ixC ido ip i j k) 0)) := by
  unfold readCol
  apply mapM_ok
  intro j hj
  rw [List.mem_range] at hj
  exact rdD (by rw [hc]; exact ixC_lt hi hk hj)

theorem getD_map_range (n : ℕ) (g : ℕ → ℂ) {m : ℕ} (h : m < n) : ((List.range n).map g).getD m 0 = g m := by
  simp [List.getD, h]

/-- The value written for component `j` of a column. -/
noncomputable def colVal (back tw : Bool) (ido i : ℕ) (wa : List ℂ) (iw : ℕ) (u : List ℂ) (j : ℕ) : ℂ :=
  if tw && decide (j ≠ 0) then mulpm back (wa.getD (iw + i + (j - 1) * ido) 0) (u.getD j 0) else u.getD j 0

theorem writeCol_spec (back tw : Bool) {ip ido l1 i k : ℕ} (hi : i < ido) (hk : k < l1) (wa : List ℂ) (iw : ℕ) (u ch : List ℂ)
    (hu : u.length = ip) (hw : tw = true → iw + (ip - 1) * ido ≤ wa.length) (hc : ch.length = ido * (l1 * ip)) :
    ∃ ch', writeCol back tw ip ido l1 i k wa iw u ch = ok ch' ∧ ch'.length = ido * (l1 * ip) ∧
      (∀ j < ip, ch'.getD (ixH ido l1 i k j) 0 = colVal back tw ido i wa iw u j) ∧
      (∀ x, (∀ j < ip, x ≠ ixH ido l1 i k j) → ch'.getD x 0 = ch.getD x 0) := by
  unfold writeCol
  obtain ⟨ch', hr, h1, h2, h3⟩ := forN_inv ip (fun j ch => do
    let x ← rd u (j : ℤ)
    if tw && decide (j ≠ 0) then do
      let w ← rd wa ((iw + i + (j - 1) * ido : ℕ) : ℤ)
      wr ch (ixH ido l1 i k j : ℤ) (mulpm back w x)
    else wr ch (ixH ido l1 i k j : ℤ) x) ch
    (fun m c => c.length = ido * (l1 * ip) ∧
      (∀ j < m, c.getD (ixH ido l1 i k j) 0 = colVal back tw ido i wa iw u j) ∧
      (∀ x, (∀ j < m, x ≠ ixH ido l1 i k j) → c.getD x 0 = ch.getD x 0))
    ⟨hc, by omega, fun _ _ => rfl⟩
    (by
      rintro m c hm ⟨h1, h2, h3⟩
      have hlt := ixH_lt (l1 := l1) hi hk hm
      have key : (do
        let x ← rd u (m : ℤ)
        if tw && decide (m ≠ 0) then do
          let w ← rd wa ((iw + i + (m - 1) * ido : ℕ) : ℤ)
          wr c (ixH ido l1 i k m : ℤ) (mulpm back w x)
        else wr c (ixH ido l1 i k m : ℤ) x) = ok (c.set (ixH ido l1 i k m) (colVal back tw ido i wa iw u m)) := by
        rw [rdD (by omega), ok_bind]
        unfold colVal
        by_cases hb : (tw && decide (m ≠ 0)) = true
        · rw [if_pos hb, if_pos hb]
          simp only [Bool.and_eq_true, decide_eq_true_eq] at hb
          have hw' := hw hb.1
          have : (m - 1 + 1) * ido ≤ (ip - 1) * ido := Nat.mul_le_mul_right _ (by omega)
          rw [add_mul] at this
          rw [rdD (by omega), ok_bind, wr_nat _ (by omega)]
        · rw [if_neg hb, if_neg hb, wr_nat _ (by omega)]
      refine ⟨_, key, by simpa using h1, ?_, ?_⟩
      · intro j hj
        by_cases e : j = m
        · subst e; rw [getD_set_self _ (by omega)]
        · rw [getD_set_ne _ (fun h => e ((ixH_inj hi hi hk hk h).2.2.symm))]; exact h2 j (by omega)
      · intro x hx
        rw [getD_set_ne _ (fun h => hx m (by omega) h.symm)]; exact h3 x (fun j hj => hx j (by omega)))
  exact ⟨ch', hr, h1, h2, h3⟩

/-- Double loop over `k`, `i` in which iteration `(i,k)` sets column `(i,k)`. -/
theorem colLoop (ip ido l1 : ℕ) (B : ℕ → ℕ → List ℂ → Res (List ℂ)) (F : ℕ → ℕ → ℕ → ℂ) (ch : List ℂ)
    (hc : ch.length = ido * (l1 * ip))
    (hB : ∀ i < ido, ∀ k < l1, ∀ c : List ℂ, c.length = ido * (l1 * ip) → ∃ c', B i k c = ok c' ∧ c'.length = ido * (l1 * ip) ∧
      (∀ j < ip, c'.getD (ixH ido l1 i k j) 0 = F i k j) ∧
      (∀ x, (∀ j < ip, x ≠ ixH ido l1 i k j) → c'.getD x 0 = c.getD x 0)) :
    ∃ ch', forN l1 (fun k ch => forN ido (fun i ch => B i k ch) ch) ch = ok ch' ∧ ch'.length = ido * (l1 * ip) ∧
      ∀ i < ido, ∀ k < l1, ∀ j < ip, ch'.getD (ixH ido l1 i k j) 0 = F i k j := by
  obtain ⟨ch', hr, h1, h2⟩ := forN_inv l1 (fun k ch => forN ido (fun i ch => B i k ch) ch) ch
    (fun K c => c.length = ido * (l1 * ip) ∧ ∀ i < ido, ∀ k < K, k < l1 → ∀ j < ip, c.getD (ixH ido l1 i k j) 0 = F i k j)
    ⟨hc, fun _ _ _ h => absurd h (Nat.not_lt_zero _)⟩
    (by
      rintro K c hK ⟨h1, h2⟩
      obtain ⟨c', hr, g1, g2⟩ := forN_inv ido (fun i ch => B i K ch) c
        (fun I c => c.length = ido * (l1 * ip) ∧ ∀ i < ido, ∀ k < l1, (k < K ∨ k = K ∧ i < I) → ∀ j < ip, c.getD (ixH ido l1 i k j) 0 = F i k j)
        ⟨h1, fun i hi k hk hh j hj => by
          rcases hh with hh | hh
          · exact h2 i hi k hh hk j hj
          · omega⟩
        (by
          rintro I c hI ⟨g1, g2⟩
          obtain ⟨c', hb, l1', l2', l3'⟩ := hB I hI K hK c g1
          refine ⟨c', hb, l1', fun i hi k hk hh j hj => ?_⟩
          by_cases e : k = K ∧ i = I
          · obtain ⟨rfl, rfl⟩ := e; exact l2' j hj
          · rw [l3' _ (fun j' _ h => e (by obtain ⟨p, q, _⟩ := ixH_inj hi hI hk hK h; exact ⟨q, p⟩))]
            exact g2 i hi k hk (by omega) j hj)
      exact ⟨c', hr, g1, fun i hi k hk hk' j hj => g2 i hi k hk' (by omega) j hj⟩)
  exact ⟨ch', hr, h1, fun i hi k hk j hj => h2 i hi k hk hk j hj⟩

/-! ## one pass -/

/-- Value computed by a pass at `(i,k,j)`. -/
noncomputable def passVal (back : Bool) (n ip ido l1 : ℕ) (cc : List ℂ) (i k j : ℕ) : ℂ :=
  zeta n (sg back * (j * l1 * i)) * ∑ m ∈ range ip, zeta ip (sg back * (m * j)) * cc.getD (ixC ido ip i m k) 0

/-- The entries of the twiddle table used by the pass with factor `ip` at stride `l1`, starting at `iw`. -/
structure TabRow (n : ℕ) (wa : List ℂ) (l1 ip ido iw : ℕ) : Prop where
  len : iw + (ip - 1) * ido ≤ wa.length
  tw : ∀ j, 1 ≤ j → j < ip → ∀ i < ido, (i ≠ 0 ∨ ip ≤ 6) → wa.getD (iw + i + (j - 1) * ido) 0 = zeta n (j * l1 * i)
  root : 6 < ip → ∀ j, 1 ≤ j → j < ip → wa.getD (iw + (j - 1) * ido) 0 = zeta ip j

theorem dftAt_col (back : Bool) (ip j : ℕ) (g : ℕ → ℂ) :
    dftAt back ip ((List.range ip).map g) j = ∑ m ∈ range ip, zeta ip (sg back * (m * j)) * g m := by
  unfold dftAt
  apply sum_congr rfl
  intro m hm
  rw [mem_range] at hm
  rw [getD_map_range _ _ hm]

theorem passS_spec (back : Bool) {n ip ido l1 iw : ℕ} (wa cc ch : List ℂ) (h2 : 2 ≤ ip) (h6 : ip ≤ 6)
    (ht : TabRow n wa l1 ip ido iw) (hcc : cc.length = ido * (l1 * ip)) (hch : ch.length = ido * (l1 * ip)) :
    ∃ r, passS back ip ido l1 wa iw cc ch = ok r ∧ r.length = ido * (l1 * ip) ∧
      ∀ i < ido, ∀ k < l1, ∀ j < ip, r.getD (ixH ido l1 i k j) 0 = passVal back n ip ido l1 cc i k j := by
  unfold passS
  apply colLoop ip ido l1 _ _ ch hch
  intro i hi k hk c hc
  rw [readCol_spec hi hk cc hcc, ok_bind]
  obtain ⟨u, hu, hul, hus⟩ := bf_spec back ((List.range ip).map (fun j => cc.getD (ixC ido ip i j k) 0)) (by simpa using h2) (by simpa using h6)
  rw [hu, ok_bind]
  simp only [List.length_map, List.length_range] at hul hus
  obtain ⟨c', hr, g1, g2, g3⟩ := writeCol_spec back (decide (ido ≠ 1)) (k := k) hi hk wa iw u c hul (fun _ => ht.len) hc
  refine ⟨c', hr, g1, fun j hj => ?_, g3⟩
  rw [g2 j hj]
  unfold colVal passVal
  rw [hus j hj, dftAt_col]
  by_cases hj0 : j = 0
  · subst hj0; simp
  by_cases hd : ido = 1
  · have : i = 0 := by omega
    subst hd this; simp
  rw [if_pos (by simp [hj0, hd]), ht.tw j (by omega) hj i hi (Or.inr h6), mulpm_zeta]

/-- The multiplication of the second part of `passg`. -/
theorem gTwiddle_spec (back : Bool) {n ip ido l1 iw : ℕ} (wa ch : List ℂ) (G : ℕ → ℕ → ℕ → ℂ) (h1p : 1 ≤ ip)
    (ht : TabRow n wa l1 ip ido iw) (hch : ch.length = ido * (l1 * ip))
    (hG : ∀ i < ido, ∀ k < l1, ∀ j < ip, ch.getD (ixH ido l1 i k j) 0 = G i k j) :
    ∃ r, gTwiddle back ip ido l1 wa iw ch = ok r ∧ r.length = ido * (l1 * ip) ∧
      ∀ i < ido, ∀ k < l1, ∀ j < ip, r.getD (ixH ido l1 i k j) 0 = zeta n (sg back * (j * l1 * i)) * G i k j := by
  classical
  unfold gTwiddle
  by_cases hd : ido = 1
  · rw [if_pos hd]
    refine ⟨ch, rfl, hch, fun i hi k hk j hj => ?_⟩
    have : i = 0 := by omega
    subst this
    rw [hG 0 hi k hk j hj]; simp
  rw [if_neg hd]
  let Q (proc : ℕ → ℕ → ℕ → Prop) (c : List ℂ) : Prop := c.length = ido * (l1 * ip) ∧
    ∀ i < ido, ∀ k < l1, ∀ j < ip, c.getD (ixH ido l1 i k j) 0 =
      if proc i k j then zeta n (sg back * (j * l1 * i)) * G i k j else G i k j
  have Qc : ∀ (p q : ℕ → ℕ → ℕ → Prop) (c : List ℂ), (∀ i < ido, ∀ k < l1, ∀ j < ip, p i k j ↔ q i k j) → Q p c → Q q c := by
    rintro p q c hpq ⟨a, b⟩
    refine ⟨a, fun i hi k hk j hj => ?_⟩
    rw [b i hi k hk j hj]
    by_cases hp : p i k j
    · rw [if_pos hp, if_pos ((hpq i hi k hk j hj).mp hp)]
    · rw [if_neg hp, if_neg (fun h => hp ((hpq i hi k hk j hj).mpr h))]
  obtain ⟨r, hr, g1, g2⟩ := forN_inv (ip - 1) (fun j0 ch => forN l1 (fun k ch => forN (ido - 1) (fun i0 ch => do
    let t ← rd ch (ixH ido l1 (i0 + 1) k (j0 + 1) : ℤ)
    let w ← rd wa ((iw + (j0 * ido + (i0 + 1)) : ℕ) : ℤ)
    wr ch (ixH ido l1 (i0 + 1) k (j0 + 1) : ℤ) (mulpm back w t)) ch) ch) ch
    (fun J c => Q (fun i _ j => 1 ≤ i ∧ 1 ≤ j ∧ j ≤ J) c)
    ⟨hch, fun i hi k hk j hj => by rw [if_neg (by omega)]; exact hG i hi k hk j hj⟩
    (by
      intro J c hJ hQ
      obtain ⟨r, hr, hQ'⟩ := forN_inv l1 (fun k ch => forN (ido - 1) (fun i0 ch => do
        let t ← rd ch (ixH ido l1 (i0 + 1) k (J + 1) : ℤ)
        let w ← rd wa ((iw + (J * ido + (i0 + 1)) : ℕ) : ℤ)
        wr ch (ixH ido l1 (i0 + 1) k (J + 1) : ℤ) (mulpm back w t)) ch) c
        (fun K c => Q (fun i k j => 1 ≤ i ∧ 1 ≤ j ∧ (j ≤ J ∨ j = J + 1 ∧ k < K)) c)
        (Qc _ _ _ (fun i hi k hk j hj => by omega) hQ)
        (by
          intro K c hK hQ
          obtain ⟨r, hr, hQ'⟩ := forN_inv (ido - 1) (fun i0 ch => do
            let t ← rd ch (ixH ido l1 (i0 + 1) K (J + 1) : ℤ)
            let w ← rd wa ((iw + (J * ido + (i0 + 1)) : ℕ) : ℤ)
            wr ch (ixH ido l1 (i0 + 1) K (J + 1) : ℤ) (mulpm back w t)) c
            (fun I c => Q (fun i k j => 1 ≤ i ∧ 1 ≤ j ∧ (j ≤ J ∨ j = J + 1 ∧ (k < K ∨ k = K ∧ i ≤ I))) c)
            (Qc _ _ _ (fun i hi k hk j hj => by omega) hQ)
            (by
              rintro I c hI ⟨q1, q2⟩
              have hlt := ixH_lt (ido := ido) (l1 := l1) (ip := ip) (i := I + 1) (k := K) (j := J + 1) (by omega) hK (by omega)
              have hrow := ht.tw (J + 1) (by omega) (by omega) (I + 1) (by omega) (Or.inl (by omega))
              have hlen := ht.len
              have hb : (J + 1) * ido ≤ (ip - 1) * ido := Nat.mul_le_mul_right _ (by omega)
              rw [add_mul] at hb
              have q := q2 (I + 1) (by omega) K hK (J + 1) (by omega)
              rw [if_neg (by omega)] at q
              rw [rdD (by omega), ok_bind, rdD (by omega), ok_bind, wr_nat _ (by omega), q,
                show iw + (J * ido + (I + 1)) = iw + (I + 1) + (J + 1 - 1) * ido by rw [Nat.add_sub_cancel]; omega, hrow, mulpm_zeta]
              refine ⟨_, rfl, by simpa using q1, fun i hi k hk j hj => ?_⟩
              by_cases e : i = I + 1 ∧ k = K ∧ j = J + 1
              · obtain ⟨rfl, rfl, rfl⟩ := e
                rw [getD_set_self _ (by omega), if_pos (by omega)]
              · rw [getD_set_ne _ (fun h => e (by
                  obtain ⟨a, b, c⟩ := ixH_inj (by omega) hi hK hk h; exact ⟨a.symm, b.symm, c.symm⟩)), q2 i hi k hk j hj]
                by_cases hp : 1 ≤ i ∧ 1 ≤ j ∧ (j ≤ J ∨ j = J + 1 ∧ (k < K ∨ k = K ∧ i ≤ I))
                · rw [if_pos hp, if_pos (by omega)]
                · rw [if_neg hp, if_neg (by omega)])
          exact ⟨r, hr, Qc _ _ _ (fun i hi k hk j hj => by omega) hQ'⟩)
      exact ⟨r, hr, Qc _ _ _ (fun i hi k hk j hj => by omega) hQ'⟩)
  refine ⟨r, hr, g1, fun i hi k hk j hj => ?_⟩
  rw [g2 i hi k hk j hj]
  by_cases hp : 1 ≤ i ∧ 1 ≤ j ∧ j ≤ ip - 1
  · rw [if_pos hp]
  · rw [if_neg hp]
    have : i = 0 ∨ j = 0 := by omega
    rcases this with rfl | rfl <;> simp

theorem passG_spec (back : Bool) {n ip ido l1 iw : ℕ} (wa cc ch : List ℂ) (h7 : 6 < ip) (hp : Nat.Prime ip) (hido : 1 ≤ ido)
    (ht : TabRow n wa l1 ip ido iw) (hcc : cc.length = ido * (l1 * ip)) (hch : ch.length = ido * (l1 * ip)) :
    ∃ r, passG back ip ido l1 wa iw cc ch = ok r ∧ r.length = ido * (l1 * ip) ∧
      ∀ i < ido, ∀ k < l1, ∀ j < ip, r.getD (ixH ido l1 i k j) 0 = passVal back n ip ido l1 cc i k j := by
  obtain ⟨h, rfl⟩ : ∃ h, ip = 2 * h + 1 := by
    have := hp.eq_two_or_odd'
    rcases this with e | ⟨h, e⟩
    · omega
    · exact ⟨h, e⟩
  unfold passG
  have hwal : (List.range (2 * h + 1 - 1)).mapM (fun i : ℕ => rd wa ((iw + ido * i : ℕ) : ℤ)) =
      ok ((List.range (2 * h)).map (fun i => wa.getD (iw + ido * i) 0)) := by
    rw [Nat.add_sub_cancel]
    apply mapM_ok
    intro i hi
    rw [List.mem_range] at hi
    apply rdD
    have hl := ht.len
    rw [Nat.add_sub_cancel] at hl
    have : ido * (i + 1) ≤ ido * (2 * h) := Nat.mul_le_mul_left _ hi
    rw [mul_comm (2 * h) ido] at hl
    rw [mul_add] at this
    omega
  rw [hwal, ok_bind]
  obtain ⟨c, hr, c1, c2⟩ := colLoop (2 * h + 1) ido l1 (fun i k ch => do
      let v ← readCol (2 * h + 1) ido i k cc
      let u ← bfg back (2 * h + 1) ((List.range (2 * h)).map (fun i => wa.getD (iw + ido * i) 0)) v
      writeCol back false (2 * h + 1) ido l1 i k wa iw u ch)
    (fun i k j => ∑ m ∈ range (2 * h + 1), zeta (2 * h + 1) (sg back * (m * j)) * cc.getD (ixC ido (2 * h + 1) i m k) 0) ch hch
    (by
      intro i hi k hk c hc
      rw [readCol_spec hi hk cc hcc, ok_bind]
      obtain ⟨u, hu, hul, hus⟩ := bfg_spec back h (by omega) hp ((List.range (2 * h)).map (fun i => wa.getD (iw + ido * i) 0))
        ((List.range (2 * h + 1)).map (fun j => cc.getD (ixC ido (2 * h + 1) i j k) 0)) (by simp) (by simp)
        (by
          intro i hi
          rw [getD_map_range _ _ hi, mul_comm ido i]
          have := ht.root h7 (i + 1) (by omega) (by omega)
          rwa [Nat.add_sub_cancel] at this)
      rw [hu, ok_bind]
      obtain ⟨c', hr, g1, g2, g3⟩ := writeCol_spec back false (k := k) hi hk wa iw u c hul (by simp) hc
      refine ⟨c', hr, g1, fun j hj => ?_, g3⟩
      rw [g2 j hj]
      unfold colVal
      rw [if_neg (by simp), hus j hj, dftAt_col])
  rw [hr, ok_bind]
  exact gTwiddle_spec back wa c _ (by omega) ht c1 c2

/-! ## induction over the factors -/

theorem sum_blocks (ip l1 : ℕ) (f : ℕ → ℂ) : ∑ q ∈ range (l1 * ip), f q = ∑ m ∈ range ip, ∑ q ∈ range l1, f (m + ip * q) := by
  rw [sum_comm]
  induction l1 with
  | zero => simp
  | succ l ih => rw [add_mul, one_mul, sum_range_add, ih, sum_range_succ]; congr 1; apply sum_congr rfl; intro m _; congr 1; ring

/-- The partial transform held in the buffer when the factors consumed so far have product `l1`. -/
noncomputable def part (back : Bool) (n l1 N1 : ℕ) (x : List ℂ) (a k : ℕ) : ℂ :=
  ∑ q ∈ range l1, x.getD (a + N1 * q) 0 * zeta n (sg back * (k * (a + N1 * q : ℕ)))

theorem part_step (back : Bool) {n ip ido l1 : ℕ} (hn : n = ido * (l1 * ip)) (h0 : n ≠ 0) (x cc : List ℂ)
    (hcc : ∀ a < ido * ip, ∀ k < l1, cc.getD (a + ido * ip * k) 0 = part back n l1 (ido * ip) x a k)
    {i k j : ℕ} (hi : i < ido) (hk : k < l1) :
    passVal back n ip ido l1 cc i k j = part back n (l1 * ip) ido x i (k + l1 * j) := by
  have hl : l1 * ido ≠ 0 := by rintro h; apply h0; rw [hn]; rw [show ido * (l1 * ip) = l1 * ido * ip by ring, h, zero_mul]
  unfold passVal
  have e1 : ∀ m ∈ range ip, zeta ip (sg back * (m * j)) * cc.getD (ixC ido ip i m k) 0 =
      zeta ip (sg back * (m * j)) * part back n l1 (ido * ip) x (i + ido * m) k := by
    intro m hm
    rw [mem_range] at hm
    congr 1
    unfold ixC
    rw [show i + ido * (m + ip * k) = (i + ido * m) + ido * ip * k by ring]
    apply hcc _ _ k hk
    have : ido * (m + 1) ≤ ido * ip := Nat.mul_le_mul_left _ hm
    rw [mul_add] at this; omega
  rw [sum_congr rfl e1]
  unfold part
  rw [sum_blocks, mul_sum]
  apply sum_congr rfl
  intro m _
  rw [mul_sum, mul_sum]
  apply sum_congr rfl
  intro q _
  rw [show i + ido * (m + ip * q) = i + ido * m + ido * ip * q by ring]
  generalize hy : i + ido * m + ido * ip * q = y
  have z1 : zeta ip (sg back * (m * j)) = zeta n (((l1 * ido : ℕ) : ℤ) * (sg back * (m * j))) := by
    rw [zeta_scale (n := n) (m := l1 * ido) (k := ip) (by rw [hn]; ring) hl]
  have z2 : zeta n (sg back * ((k + l1 * j : ℕ) * (y : ℤ))) =
      zeta n (sg back * (j * l1 * i)) * (zeta n (((l1 * ido : ℕ) : ℤ) * (sg back * (m * j))) * zeta n (sg back * (k * (y : ℤ)))) := by
    rw [← zeta_add, ← zeta_add]
    apply zeta_mod h0 _ _ (sg back * (j * q))
    rw [← hy, hn]; push_cast; ring
  push_cast at z2 ⊢
  push_cast at z1
  rw [z1, z2]; ring

/-- A factor the passes can handle. -/
def GoodFac (ip : ℕ) : Prop := (2 ≤ ip ∧ ip ≤ 6) ∨ (6 < ip ∧ Nat.Prime ip)

/-- The table and the remaining factors `fac` fit the transform of length `n` when the consumed factors have product `l1`. -/
def TabOk (n : ℕ) (wa : List ℂ) : ℕ → ℕ → List ℕ → Prop
  | l1, _, [] => l1 = n
  | l1, iw, ip :: fac => GoodFac ip ∧ (∃ ido, n = ido * (l1 * ip) ∧ TabRow n wa l1 ip ido iw) ∧
      TabOk n wa (l1 * ip) (iw + (ip - 1) * (n / (l1 * ip))) fac

theorem cfftStep_spec (back : Bool) {n : ℕ} (h0 : n ≠ 0) (wa x : List ℂ) (s : CS) (ip ido : ℕ) (hg : GoodFac ip)
    (hn : n = ido * (s.l1 * ip)) (ht : TabRow n wa s.l1 ip ido s.iw) (h1 : s.p1.length = n) (h2 : s.p2.length = n)
    (hp : ∀ a < ido * ip, ∀ k < s.l1, s.p1.getD (a + ido * ip * k) 0 = part back n s.l1 (ido * ip) x a k) :
    ∃ r, cfftStep back n wa s ip = ok ⟨s.l1 * ip, s.iw + (ip - 1) * (n / (s.l1 * ip)), r, s.p1⟩ ∧ r.length = n ∧
      ∀ a < ido, ∀ k < s.l1 * ip, r.getD (a + ido * k) 0 = part back n (s.l1 * ip) ido x a k := by
  have hpos : 0 < s.l1 * ip := Nat.pos_of_ne_zero (by rintro h; apply h0; rw [hn, h, mul_zero])
  have hido0 : 1 ≤ ido := Nat.pos_of_ne_zero (by rintro h; apply h0; rw [hn, h, zero_mul])
  have hido : n / (s.l1 * ip) = ido := by rw [hn]; exact Nat.mul_div_cancel _ hpos
  have hpass : ∃ r, pass back ip ido s.l1 wa s.iw s.p1 s.p2 = ok r ∧
      r.length = ido * (s.l1 * ip) ∧ ∀ i < ido, ∀ k < s.l1, ∀ j < ip, r.getD (ixH ido s.l1 i k j) 0 = passVal back n ip ido s.l1 s.p1 i k j := by
    unfold pass
    rcases hg with ⟨a, b⟩ | ⟨a, b⟩
    · rw [if_pos ⟨a, b⟩]
      exact passS_spec back wa s.p1 s.p2 a b ht (by rw [h1]; exact hn) (by rw [h2]; exact hn)
    · rw [if_neg (by omega)]
      exact passG_spec back wa s.p1 s.p2 a b hido0 ht (by rw [h1]; exact hn) (by rw [h2]; exact hn)
  obtain ⟨r, hr, hrl, hrv⟩ := hpass
  refine ⟨r, ?_, by rw [hrl]; exact hn.symm, fun a ha k hk => ?_⟩
  · unfold cfftStep
    dsimp only
    rw [mul_comm ip s.l1, hido, hr, ok_bind]
  · have hl1 : 0 < s.l1 := Nat.pos_of_ne_zero (by rintro h; rw [h, zero_mul] at hpos; omega)
    have hm : k % s.l1 < s.l1 := Nat.mod_lt _ hl1
    have hd : k / s.l1 < ip := Nat.div_lt_of_lt_mul hk
    have := hrv a ha (k % s.l1) hm (k / s.l1) hd
    unfold ixH at this
    rw [Nat.mod_add_div] at this
    rw [this, part_step back hn h0 x s.p1 hp ha hm, Nat.mod_add_div]

theorem cfft_loop (back : Bool) {n : ℕ} (h0 : n ≠ 0) (wa x : List ℂ) (fac : List ℕ) : ∀ (s : CS) (N1 : ℕ), TabOk n wa s.l1 s.iw fac →
    n = N1 * s.l1 → s.p1.length = n → s.p2.length = n →
    (∀ a < N1, ∀ k < s.l1, s.p1.getD (a + N1 * k) 0 = part back n s.l1 N1 x a k) →
    ∃ t, foldRes (cfftStep back n wa) s fac = ok t ∧ t.p1.length = n ∧ t.p2.length = n ∧
      ∀ k < n, t.p1.getD k 0 = part back n n 1 x 0 k := by
  induction fac with
  | nil =>
    intro s N1 ht hN h1 h2 hp
    have hl : s.l1 = n := ht
    have hN1 : N1 = 1 := by rw [hl] at hN; exact Nat.eq_of_mul_eq_mul_right (Nat.pos_of_ne_zero h0) (by omega)
    subst hN1
    refine ⟨s, rfl, h1, h2, fun k hk => ?_⟩
    have := hp 0 (by omega) k (by omega)
    rw [hl] at this
    rwa [zero_add, one_mul] at this
  | cons ip fac ih =>
    intro s N1 ht hN h1 h2 hp
    obtain ⟨hg, ⟨ido, hn, hrow⟩, hrest⟩ := ht
    have hl1 : 0 < s.l1 := Nat.pos_of_ne_zero (by rintro h; apply h0; rw [hN, h, mul_zero])
    have hN1 : N1 = ido * ip := Nat.eq_of_mul_eq_mul_right hl1 (by rw [← hN, hn]; ring)
    subst hN1
    obtain ⟨r, hr, hrl, hrv⟩ := cfftStep_spec back h0 wa x s ip ido hg hn hrow h1 h2 hp
    rw [foldRes_cons, hr]
    exact ih ⟨s.l1 * ip, s.iw + (ip - 1) * (n / (s.l1 * ip)), r, s.p1⟩ ido hrest hn hrl h1 hrv

theorem cfft1_spec (back : Bool) {n : ℕ} (h0 : n ≠ 0) (c ch wa : List ℂ) (fac : List ℕ) (ht : TabOk n wa 1 0 fac)
    (hc : c.length = n) (hch : ch.length = n) :
    ∃ r ch', cfft1 back n c ch wa fac = ok (r, ch') ∧ r.length = n ∧ ch'.length = n ∧
      ∀ k < n, r.getD k 0 = ∑ q ∈ range n, c.getD q 0 * zeta n (sg back * (k * q)) := by
  obtain ⟨t, hr, h1, h2, h3⟩ := cfft_loop back h0 wa c fac ⟨1, 0, c, ch⟩ n ht (by simp) hc hch (by
    intro a ha k hk
    dsimp only at hk
    obtain rfl : k = 0 := by omega
    unfold part
    simp)
  refine ⟨t.p1, if fac.length % 2 = 0 then t.p2 else t.p1, ?_, h1, ?_, fun k hk => ?_⟩
  · unfold cfft1; rw [hr, ok_bind]
  · split_ifs
    · exact h2
    · exact h1
  · rw [h3 k hk]
    unfold part
    apply sum_congr rfl
    intro q _
    rw [zero_add, one_mul]

end Verif.Fft
