import Verif.Fft.Blue
import Mathlib.Data.Nat.Factors
import Mathlib.Data.Nat.Sqrt
import Mathlib.Algebra.Order.Floor.Semiring

/-! # `prime_factor_sum` -/

namespace Verif.Fft
open Verif Res

theorem limitOf_eq (n : ℕ) : limitOf n = Nat.sqrt n := by
  unfold limitOf
  rw [Nat.floor_eq_iff (Real.sqrt_nonneg _)]
  have h1 : (Nat.sqrt n : ℝ) * Nat.sqrt n ≤ n := by exact_mod_cast Nat.sqrt_le n
  have h2 : (n : ℝ) + 1 ≤ ((Nat.sqrt n : ℝ) + 1) * (Nat.sqrt n + 1) := by exact_mod_cast Nat.succ_le_of_lt (Nat.lt_succ_sqrt n)
  constructor
  · apply Real.le_sqrt_of_sq_le; nlinarith
  · rw [Real.sqrt_lt' (by positivity)]; nlinarith

/-- Sum of the prime factors with multiplicity. -/
def psum (n : ℕ) : ℕ := n.primeFactorsList.sum

theorem psum_mul_prime {p n : ℕ} (hp : Nat.Prime p) (hn : n ≠ 0) : psum (p * n) = p + psum n := by
  unfold psum
  have := (Nat.perm_primeFactorsList_mul hp.ne_zero hn).sum_eq
  rw [this, List.sum_append, Nat.primeFactorsList_prime hp]; simp

theorem pfs2_spec : ∀ (f res n : ℕ), 1 ≤ n → n < f → ∃ r, pfs2 f res n = ok r ∧ 1 ≤ r.2 ∧ r.2 ≤ n ∧ r.2 % 2 = 1 ∧ r.1 + psum r.2 = res + psum n := by
  intro f
  induction f with
  | zero => intro res n _ h; omega
  | succ f ih =>
    intro res n h1 hf
    unfold pfs2
    by_cases h : n / 2 * 2 = n
    · rw [if_pos h]
      obtain ⟨r, hr, a, b, c, d⟩ := ih (res + 2) (n / 2) (by omega) (by omega)
      refine ⟨r, hr, a, by omega, c, ?_⟩
      rw [d]
      have := psum_mul_prime Nat.prime_two (n := n / 2) (by omega)
      rw [show 2 * (n / 2) = n by omega] at this
      omega
    · rw [if_neg h]; exact ⟨_, rfl, h1, le_refl _, by dsimp only; omega, rfl⟩

theorem pfsX_spec (x : ℕ) (hx : 3 ≤ x) : ∀ (f res n : ℕ), 1 ≤ n → n < f → (x ∣ n → Nat.Prime x) →
    ∃ r, pfsX f x res n = ok r ∧ 1 ≤ r.2 ∧ r.2 ∣ n ∧ ¬ x ∣ r.2 ∧ r.1 + psum r.2 = res + psum n := by
  intro f
  induction f with
  | zero => intro res n _ h; omega
  | succ f ih =>
    intro res n h1 hf hp
    unfold pfsX
    by_cases h : n / x * x = n
    · have hd : x ∣ n := ⟨n / x, by rw [mul_comm]; exact h.symm⟩
      have hpos : 1 ≤ n / x := Nat.div_pos (Nat.le_of_dvd (by omega) hd) (by omega)
      have hlt : n / x < n := Nat.div_lt_self (by omega) (by omega)
      rw [if_pos h]
      obtain ⟨r, hr, a, b, c, d⟩ := ih (res + x) (n / x) hpos (by omega) (fun _ => hp hd)
      refine ⟨r, hr, a, b.trans (Nat.div_dvd_of_dvd hd), c, ?_⟩
      rw [d]
      have := psum_mul_prime (hp hd) (n := n / x) (by omega)
      rw [Nat.mul_div_cancel' hd] at this
      omega
    · rw [if_neg h]
      refine ⟨_, rfl, h1, dvd_refl _, fun hd => h (Nat.div_mul_cancel hd), rfl⟩

theorem pfsOuter_spec : ∀ (f x res n : ℕ), 1 ≤ n → 3 ≤ x → x % 2 = 1 → n % 2 = 1 → (∀ p, Nat.Prime p → p < x → ¬ p ∣ n) →
    n + 2 < f + x → (1 ≤ f ∨ n < x * x) → 1 ≤ f →
    ∃ r, pfsOuter f x res n = ok r ∧ 1 ≤ r.2 ∧ (r.2 = 1 ∨ Nat.Prime r.2) ∧ r.1 + psum r.2 = res + psum n := by
  intro f
  induction f with
  | zero => intro x res n _ _ _ _ _ _ _ h; omega
  | succ f ih =>
    intro x res n h1 hx hodd hn2 hp hf _ _
    unfold pfsOuter
    rw [limitOf_eq]
    by_cases hle : x ≤ Nat.sqrt n
    · rw [if_pos hle]
      have hxx : x * x ≤ n := Nat.le_sqrt.mp hle
      have hprime : x ∣ n → Nat.Prime x := by
        intro hd
        have hm := Nat.minFac_prime (show x ≠ 1 by omega)
        have : ¬ x.minFac < x := fun hlt => hp _ hm hlt ((Nat.minFac_dvd x).trans hd)
        have h3 : x.minFac = x := le_antisymm (Nat.minFac_le (by omega)) (by omega)
        rw [← h3]; exact hm
      obtain ⟨r, hr, a, b, c, d⟩ := pfsX_spec x hx (n + 1) res n h1 (by omega) hprime
      rw [hr, ok_bind]
      have hrn : r.2 ≤ n := Nat.le_of_dvd (by omega) b
      have h3x : 3 * x ≤ x * x := Nat.mul_le_mul_right x hx
      have hr2 : r.2 % 2 = 1 := by
        by_contra hc
        have : 2 ∣ n := dvd_trans (show 2 ∣ r.2 by omega) b
        omega
      obtain ⟨r', hr', a', b', c'⟩ := ih (x + 2) r.1 r.2 a (by omega) (by omega) hr2 (by
        intro p hpp hlt hd
        have : p < x ∨ p = x ∨ p = x + 1 := by omega
        rcases this with e | e | e
        · exact hp p hpp e (hd.trans b)
        · exact c (e ▸ hd)
        · rcases hpp.eq_two_or_odd with e2 | e2 <;> omega) (by omega) (Or.inl (by omega)) (by omega)
      exact ⟨r', hr', a', b', by rw [c', d]⟩
    · rw [if_neg hle]
      refine ⟨_, rfl, h1, ?_, rfl⟩
      dsimp only
      by_cases h : n = 1
      · exact Or.inl h
      · right
        have hlt : n < x * x := Nat.sqrt_lt.mp (by omega)
        rw [Nat.prime_def_le_sqrt]
        refine ⟨by omega, fun m hm1 hm2 hd => ?_⟩
        have hmf := Nat.minFac_prime (show m ≠ 1 by omega)
        have : m.minFac ≤ m := Nat.minFac_le (by omega)
        exact hp m.minFac hmf (by omega) ((Nat.minFac_dvd m).trans hd)

/-- `prime_factor_sum n` terminates for `n ≥ 1` and returns the sum of the prime factors with multiplicity. -/
theorem C41_prime_factor_sum (n : ℕ) (h1 : 1 ≤ n) : primeFactorSum (n + 1) n = ok n.primeFactorsList.sum := by
  unfold primeFactorSum
  obtain ⟨r, hr, a, b, c, d⟩ := pfs2_spec (n + 1) 0 n h1 (by omega)
  rw [hr, ok_bind]
  obtain ⟨r', hr', a', b', c'⟩ := pfsOuter_spec (r.2 + 1) 3 r.1 r.2 a (by omega) rfl c (by
    intro p hp hlt hd
    have := hp.two_le
    obtain rfl : p = 2 := by omega
    omega) (by omega) (Or.inl (by omega)) (by omega)
  rw [hr', ok_bind]
  congr 1
  have hs : psum n = r'.1 + psum r'.2 := by rw [c', d, zero_add]
  change _ = psum n
  rw [hs]
  rcases b' with e | e
  · rw [e]; simp [psum]
  · rw [if_pos e.one_lt]
    unfold psum
    rw [Nat.primeFactorsList_prime e]; simp

/-- `prime_factor_sum(0)` never returns: no bound on the number of steps suffices. -/
theorem C41_zero_length_hangs (fuel : ℕ) : primeFactorSum fuel 0 = ub "loop bound" := by
  have : ∀ f res, pfs2 f res 0 = ub "loop bound" := by
    intro f
    induction f with
    | zero => intro _; rfl
    | succ f ih => intro res; unfold pfs2; rw [if_pos (by norm_num)]; exact ih _
  unfold primeFactorSum
  rw [this]; rfl

end Verif.Fft
