import Verif.Util.HalfPiOmp
import Verif.Util.RotAlmMain

/-!
# Risbo recursion at π/2 (C76): theorems
-/

namespace Verif.HalfPi

open Verif Res Verif.Risbo Verif.Num

theorem W_half {l k i : ℕ} (hk : k ≤ 2 * l) (hi : i ≤ 2 * l) :
    W pq pq (2 * l) k i = wignerD l ((l : ℤ) - k) ((l : ℤ) - i) (Real.pi / 2) := by
  have h := W_wigner (Real.pi / 2) hk hi
  rw [show Real.pi / 2 / 2 = Real.pi / 4 by ring, Real.cos_pi_div_four, Real.sin_pi_div_four, ← pq_eq] at h
  exact h

/-- C76: after `n + 1` calls of `recurse` of the serial class, `n ≤ max(lmax, 1)`, whatever the initial contents of the table, it holds
`d[k][i] = d^n_{n-k,n-i}(π/2)` for `k, i ≤ n`, and no access was out of bounds. -/
theorem C76_scalar_table (lmax : ℕ) (junk junk' : ℕ → ℕ → ℝ) (n : ℕ) (hn : n ≤ max lmax 1) :
    ∃ r, calls HRec.scalar (HRec.new lmax junk junk') (n + 1) = ok r ∧
      ∀ k i : ℕ, k ≤ n → i ≤ n → r.d.get k i = ok (wignerD n ((n : ℤ) - k) ((n : ℤ) - i) (Real.pi / 2)) := by
  obtain ⟨r, hr, hg⟩ := scalar_calls lmax junk junk' hn
  refine ⟨r, hr, fun k i hk hi => ?_⟩
  rw [A2.get_ok (by rw [hg.h1]; omega) (by rw [hg.h2]; omega), hg.rows k hk i hi, W_half (by omega) (by omega)]

/-- C76: the same for the OpenMP class: the calls have an outcome, and every outcome (any initial contents of the tables, any contents left by the
reallocations, any number of threads, any dealing of the rows, any interleaving of their loads and stores; data races, failures of a thread and
endless runs counting as undefined behaviour) is such a table. -/
theorem C76_omp_table (lmax n : ℕ) (hn : n ≤ max lmax 1) :
    (∃ r, ompCalls lmax (n + 1) r) ∧
    ∀ r, ompCalls lmax (n + 1) r → ∃ s, r = ok s ∧
      ∀ k i : ℕ, k ≤ n → i ≤ n → s.d.get k i = ok (wignerD n ((n : ℤ) - k) ((n : ℤ) - i) (Real.pi / 2)) := by
  obtain ⟨h1, h2⟩ := omp_calls lmax hn
  refine ⟨h1, fun r hr => ?_⟩
  obtain ⟨s, rfl, hg⟩ := h2 r hr
  refine ⟨s, rfl, fun k i hk hi => ?_⟩
  have a1 := hg.h1
  have a2 := hg.h2
  rw [A2.get_ok (by omega) (by omega), hg.rows k hk i hi, W_half (by omega) (by omega)]

/-- C76: both classes give the upper left quarter of the table of the general classes (C47) for the angle π/2. -/
theorem C76_agrees_general (lmax n : ℕ) (hn : n ≤ lmax) (junk junk' junk2 junk2' : ℕ → ℕ → ℝ) :
    ∃ g h, calls HRec.scalar (HRec.new lmax junk junk') (n + 1) = ok h ∧
      Risbo.calls Rec.scalar (Rec.new lmax (Real.pi / 2) junk2 junk2') (n + 1) = ok g ∧
      ∀ k i : ℕ, k ≤ n → i ≤ n → ∃ x, h.d.get k i = ok x ∧ g.d.get k i = ok x ∧
        ∀ r, ompCalls lmax (n + 1) r → ∃ s, r = ok s ∧ s.d.get k i = ok x := by
  obtain ⟨h, e1, h1⟩ := C76_scalar_table lmax junk junk' n (by omega)
  obtain ⟨g, e2, h2⟩ := Risbo.C47_scalar_table lmax (Real.pi / 2) junk2 junk2' n hn
  refine ⟨g, h, e1, e2, fun k i hk hi => ⟨_, h1 k i hk hi, h2 k i hk (by omega), fun r hr => ?_⟩⟩
  obtain ⟨s, e, hs⟩ := (C76_omp_table lmax n (by omega)).2 r hr
  exact ⟨s, e, hs k i hk hi⟩

/-- C76: the quarter determines the whole matrix: changing the sign of an index changes at most the sign of the entry. -/
theorem C76_symmetry (l k i : ℕ) (hk : k ≤ 2 * l) (hi : i ≤ 2 * l) :
    wignerD l ((l : ℤ) - k) (-((l : ℤ) - i)) (Real.pi / 2) = (-1) ^ k * wignerD l ((l : ℤ) - k) ((l : ℤ) - i) (Real.pi / 2) ∧
    wignerD l (-((l : ℤ) - k)) ((l : ℤ) - i) (Real.pi / 2) = (-1) ^ i * wignerD l ((l : ℤ) - k) ((l : ℤ) - i) (Real.pi / 2) := by
  have sgn : ∀ a : ℕ, a ≤ 2 * l → (-1 : ℝ) ^ (2 * l - a) = (-1) ^ a := by
    intro a ha
    have e : (-1 : ℝ) ^ (2 * l - a) * (-1) ^ a = 1 := by
      rw [← pow_add, show 2 * l - a + a = 2 * l by omega, pow_mul]; simp
    rcases neg_one_pow_eq_or ℝ a with h' | h' <;> rw [h'] at e ⊢ <;> linarith
  have e1 := W_half (l := l) (k := k) (i := i) hk hi
  have f1 := W_flip pq (j := 2 * l) (k := k) (i := i) hk hi
  rw [W_half hk (by omega), e1, sgn k hk] at f1
  have f2 := W_reflect pq pq (j := 2 * l) (k := k) (i := 2 * l - i) hk (by omega)
  rw [show 2 * l - (2 * l - i) = i by omega, W_half (by omega) hi, W_half hk (by omega), f1, ← mul_assoc, ← pow_add] at f2
  have g : ((l : ℤ) - ((2 * l - i : ℕ) : ℤ)) = -((l : ℤ) - i) := by omega
  have g' : ((l : ℤ) - ((2 * l - k : ℕ) : ℤ)) = -((l : ℤ) - k) := by omega
  rw [g] at f1
  rw [g'] at f2
  refine ⟨f1, ?_⟩
  rw [f2]
  congr 1
  rw [← sgn i hi, show k + (2 * l - i) + k = (2 * l - i) + 2 * k by omega, pow_add, pow_mul]
  simp

theorem line_ub {lmax n k : ℕ} {d : A2} (hl : 1 ≤ lmax) (hn : n = lmax + 1) (hk : k = n) (h1 : n < d.n1) (h2 : n < d.n2) :
    (doLine (sqTab lmax) n (2 * n - 1) k d).IsUB := by
  subst hk
  unfold doLine
  rw [rd_sq (k - 1) (by omega) (by omega), rd_sq k rfl (by omega)]
  simp only [ok_bind]
  obtain ⟨r, hrr, e1, e2⟩ := forN_inv k (fun t d => lineBody (sqTab lmax) (2 * k - 1) k (pq / ((2 * k - 1 : ℕ) : ℝ) * √((k - 1 : ℕ) : ℝ))
      (pq / ((2 * k - 1 : ℕ) : ℝ) * √(k : ℝ)) ((k : ℤ) - t) d) d (fun _ r => r.n1 = d.n1 ∧ r.n2 = d.n2) ⟨rfl, rfl⟩
    (by
      rintro t r ht ⟨e1, e2⟩
      unfold lineBody
      rw [rd_sq (2 * k - 1 - (k - t)) (by omega) (by omega), rd_sq (k - t) (by omega) (by omega)]
      simp only [ok_bind]
      rw [A2.get_ok' k (k - t) (by omega) (by omega) (by omega) (by omega)]
      simp only [ok_bind]
      rw [A2.get_ok' k (k - t - 1) (by omega) (by omega) (by omega) (by omega)]
      simp only [ok_bind]
      rw [A2.get_ok' (k - 1) (k - t) (by omega) (by omega) (by omega) (by omega)]
      simp only [ok_bind]
      rw [A2.get_ok' (k - 1) (k - t - 1) (by omega) (by omega) (by omega) (by omega)]
      simp only [ok_bind]
      rw [A2.put_ok' _ k (k - t) (by omega) (by omega) (by omega) (by omega)]
      exact ⟨_, rfl, e1, e2⟩)
  rw [hrr]
  simp only [ok_bind]
  rw [rd_ub (Or.inr (by unfold sqTab; simp; omega))]
  exact trivial

/-- C76: one call more has undefined behaviour in both classes: it reads beyond the table of square roots (the serial class with `lmax = 0`: it
writes beyond its table). -/
theorem C76_one_call_too_many (lmax : ℕ) (junk junk' : ℕ → ℕ → ℝ) :
    (calls HRec.scalar (HRec.new lmax junk junk') (max lmax 1 + 2)).IsUB ∧ ∀ r, ompCalls lmax (max lmax 1 + 2) r → r.IsUB := by
  constructor
  · obtain ⟨r, hr, hg⟩ := scalar_calls lmax junk junk' (n := max lmax 1) le_rfl
    rw [calls, hr, ok_bind]
    unfold HRec.scalar scalarTable
    have hn := hg.hn
    rw [if_neg (by omega), if_neg (by omega), show (r.n + 1).toNat = max lmax 1 + 1 by omega]
    have key : (scalarStep r.sqt (max lmax 1 + 1) r.d).IsUB := by
      rw [hg.hsq]
      by_cases hl : lmax = 0
      · subst hl
        unfold scalarStep pad
        have e : (forN (0 ⊔ 1 + 1) (padBody (0 ⊔ 1 + 1)) (1, r.d)).IsUB := by
          have b : ∀ q : ℝ × A2, q = (1, r.d) → (padBody 2 0 q).IsUB := by
            rintro q rfl
            unfold padBody
            dsimp only
            rw [A2.get_ok' 0 0 (by omega) (by omega) (by rw [hg.h1]; omega) (by rw [hg.h2]; omega)]
            simp only [ok_bind]
            have : r.d.n2 = 2 := hg.h2
            unfold A2.put
            rw [if_neg (by omega)]
            exact trivial
          show (forN 2 (padBody 2) (1, r.d)).IsUB
          rw [forN_succ, forN_succ, forN_zero, ok_bind]
          have := b _ rfl
          cases h : padBody 2 0 (1, r.d) with
          | ok a => rw [h] at this; exact this.elim
          | throw e => rw [h] at this; exact this.elim
          | ub e => exact trivial
        cases h : forN (0 ⊔ 1 + 1) (padBody (0 ⊔ 1 + 1)) (1, r.d) with
        | ok a => rw [h] at e; exact e.elim
        | throw m => rw [h] at e; exact e.elim
        | ub m => exact trivial
      · obtain ⟨a, ha, a1, a2, -⟩ := pad_spec (n := max lmax 1 + 1) (d := r.d) (by omega) (by rw [hg.h1]; omega) (by rw [hg.h2]; omega)
          (fun k hk => hg.rows k (by omega))
        unfold scalarStep
        rw [ha, ok_bind]
        have e := line_ub (lmax := lmax) (n := max lmax 1 + 1) (k := max lmax 1 + 1) (d := a) (by omega) (by omega) rfl
          (by rw [a1, hg.h1]; omega) (by rw [a2, hg.h2]; omega)
        cases h : doLine (sqTab lmax) (max lmax 1 + 1) (2 * (max lmax 1 + 1) - 1) (max lmax 1 + 1) a with
        | ok x => rw [h] at e; exact e.elim
        | throw m => rw [h] at e; exact e.elim
        | ub m => exact trivial
    cases h : scalarStep r.sqt (max lmax 1 + 1) r.d with
    | ok a => rw [h] at key; exact key.elim
    | throw m => rw [h] at key; exact key.elim
    | ub m => exact trivial
  · have hb : ∀ {α β : Type} {x : ND α} {f : α → ND β} {Q : α → Prop}, ND.All x Q → (∀ a, Q a → ∀ r, f a r → r.IsUB) →
        ∀ r, (x >>= f) r → r.IsUB := by
      rintro α β x f Q hx hf r (⟨a, ha, h⟩ | ⟨m, hm, -⟩ | ⟨m, hm, -⟩)
      · obtain ⟨a', e, hq⟩ := hx.2 _ ha
        injection e with e
        subst e
        exact hf _ hq r h
      · obtain ⟨a', e, -⟩ := hx.2 _ hm; cases e
      · obtain ⟨a', e, -⟩ := hx.2 _ hm; cases e
    have hu : ∀ {α β : Type} {x : ND α} {f : α → ND β}, (∀ r, x r → r.IsUB) → ∀ r, (x >>= f) r → r.IsUB := by
      rintro α β x f hx r (⟨a, ha, h⟩ | ⟨m, hm, rfl⟩ | ⟨m, hm, rfl⟩)
      · exact (hx _ ha).elim
      · exact (hx _ hm).elim
      · trivial
    refine hb (omp_calls lmax (n := max lmax 1) le_rfl) (fun s hg => ?_)
    unfold HRec.omp
    refine hu ?_
    unfold ompTables
    have hn := hg.hn
    rw [if_neg (by omega), if_neg (by omega), show (s.n + 1).toNat = max lmax 1 + 1 by omega, hg.hsq]
    unfold ompStep
    have g1 := hg.h1
    have g2 := hg.h2
    obtain ⟨a, ha, a1, a2, -⟩ := pad_spec (n := max lmax 1 + 1) (d := s.d) (by omega) (by omega) (by omega) (fun k hk => hg.rows k (by omega))
    refine hb (Q := fun x => x = a) (ND.All.det ha rfl) (fun x hx => ?_)
    subst hx
    refine hu ?_
    unfold half
    refine hb (Q := fun dd => dd.n1 = max lmax 1 + 1 + 2 ∧ dd.n2 = max lmax 1 + 1 + 2) (ND.All.any (fun _ => ⟨rfl, rfl⟩)) (fun dd hdd => ?_)
    refine hu ?_
    rintro _ rfl
    unfold row0
    rw [A2.get_ok' 0 0 (by omega) (by omega) (by omega) (by omega)]
    simp only [ok_bind]
    rw [A2.put_ok' _ 0 0 (by omega) (by omega) (by omega) (by omega)]
    simp only [ok_bind]
    have hub : ∀ t, (forN (t + 1) (fun t (dd : A2) => do
        let i : ℤ := (t : ℤ) + 1
        let sj ← rd (sqTab lmax) ((2 * (max lmax 1 + 1) - 1 : ℕ) : ℤ)
        let sji ← rd (sqTab lmax) (((2 * (max lmax 1 + 1) - 1 : ℕ) : ℤ) - i)
        let si ← rd (sqTab lmax) i
        let y ← x.get 0 i
        let y' ← x.get 0 (i - 1)
        dd.put 0 i (pq / ((2 * (max lmax 1 + 1) - 1 : ℕ) : ℝ) * sj * (sji * y - si * y'))) (dd.upd 0 0 (pq * x.v 0 0))).IsUB := by
      intro t
      induction t with
      | zero =>
        rw [forN_succ, forN_zero, ok_bind, rd_ub (Or.inr (by unfold sqTab; simp; omega))]
        exact trivial
      | succ t ih =>
        rw [forN_succ]
        generalize forN (t + 1) _ _ = y at ih
        cases y with
        | ok a => exact ih.elim
        | throw m => exact ih.elim
        | ub m => exact trivial
    exact hub (max lmax 1)

/-! ## Examples -/

/-- A generator of degree up to 5 after three calls: `d^2_{00}(π/2) = -1/2`, the last entry of the quarter. -/
example : ∃ r, calls HRec.scalar (HRec.new 5 (fun _ _ => 7) (fun _ _ => 7)) 3 = ok r ∧ r.d.get 2 2 = ok (-1 / 2) := by
  obtain ⟨r, e, h⟩ := scalar_calls 5 (fun _ _ => 7) (fun _ _ => 7) (n := 2) (by decide)
  refine ⟨r, e, ?_⟩
  have h1 := h.h1
  have h2 := h.h2
  rw [A2.get_ok' 2 2 (by omega) (by omega) (by omega) (by omega), h.rows 2 le_rfl 2 le_rfl]
  have hp := pq_sq
  have e2 : P pq pq 2 2 = Polynomial.C (1 / 4 : ℝ) * Polynomial.X ^ 4 + Polynomial.C (-1 / 2) * Polynomial.X ^ 2 + Polynomial.C (1 / 4) := by
    have e3 : (Polynomial.C (1 / 4 : ℝ)) = Polynomial.C pq * Polynomial.C pq * (Polynomial.C pq * Polynomial.C pq) := by
      rw [← Polynomial.C_mul, ← Polynomial.C_mul, hp]; norm_num
    have e4 : (Polynomial.C (-1 / 2 : ℝ)) = -2 * (Polynomial.C pq * Polynomial.C pq * (Polynomial.C pq * Polynomial.C pq)) := by
      rw [← e3, ← Polynomial.C_ofNat 2, ← Polynomial.C_neg, ← Polynomial.C_mul]; norm_num
    unfold P
    rw [e3, e4]
    ring
  congr 1
  unfold W
  rw [div_self (nrm_pos _ _).ne', one_mul, show 2 * 2 - 2 = 2 from rfl, e2]
  simp only [Polynomial.coeff_add, Polynomial.coeff_C_mul, Polynomial.coeff_X_pow, Polynomial.coeff_C]
  norm_num

/-- The OpenMP class with `lmax = 3` has outcomes for four calls. -/
example : ∃ r, ompCalls 3 4 r := (C76_omp_table 3 3 (by decide)).1

/-- … and with `lmax = 0` for two calls, one call more than `lmax + 1`. -/
example : ∃ r, ompCalls 0 2 r := (C76_omp_table 0 1 (by decide)).1

end Verif.HalfPi
