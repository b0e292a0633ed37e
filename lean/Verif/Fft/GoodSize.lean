import Verif.Fft.Blue
import Mathlib.Tactic.Ring
import Mathlib.Algebra.Order.Ring.Nat

/-! # `good_size` returns the smallest 5-smooth number that is large enough -/

namespace Verif.Fft
open Verif Res

theorem gs5_spec (n : ℕ) : ∀ (f x best : ℕ), 1 ≤ x → 1 + (best - x) ≤ f → n ≤ best →
    ∃ r, gs5 n f x best = ok r ∧ n ≤ r ∧ r ≤ best ∧ (r = best ∨ ∃ k, r = x * 5 ^ k) ∧ ∀ k, n ≤ x * 5 ^ k → r ≤ x * 5 ^ k := by
  intro f
  induction f with
  | zero => intro x best _ hf; omega
  | succ f ih =>
    intro x best hx hf hn
    unfold gs5
    by_cases h : x < best
    · rw [if_pos h]
      obtain ⟨b, hb⟩ : ∃ b, b = if x ≥ n then x else best := ⟨_, rfl⟩
      rw [← hb]
      have hb1 : b ≤ best ∧ n ≤ b ∧ (b = best ∨ b = x) ∧ (n ≤ x → b ≤ x) := by split_ifs at hb <;> omega
      obtain ⟨r, hr, r1, r2, r3, r4⟩ := ih (x * 5) b (by omega) (by omega) hb1.2.1
      refine ⟨r, hr, r1, by omega, ?_, fun k hk => ?_⟩
      · rcases r3 with e | ⟨k, e⟩
        · rcases hb1.2.2.1 with e' | e'
          · exact Or.inl (by omega)
          · exact Or.inr ⟨0, by simp; omega⟩
        · exact Or.inr ⟨k + 1, by rw [e, pow_succ]; ring⟩
      · cases k with
        | zero => simp only [pow_zero, mul_one] at hk ⊢; have := hb1.2.2.2 hk; omega
        | succ k =>
          have e : x * 5 ^ (k + 1) = x * 5 * 5 ^ k := by rw [pow_succ]; ring
          rw [e] at hk ⊢; exact r4 k hk
    · rw [if_neg h]
      refine ⟨best, rfl, hn, le_refl _, Or.inl rfl, fun k _ => ?_⟩
      have : x * 1 ≤ x * 5 ^ k := Nat.mul_le_mul_left _ (Nat.one_le_pow _ _ (by norm_num))
      omega

theorem gs3_spec (n : ℕ) : ∀ (f x best : ℕ), 1 ≤ x → 1 + (best - x) ≤ f → n ≤ best → best ≤ 2 * n →
    ∃ r, gs3 n f x best = ok r ∧ n ≤ r ∧ r ≤ best ∧ (r = best ∨ ∃ k l, r = x * 3 ^ k * 5 ^ l) ∧
      ∀ k l, n ≤ x * 3 ^ k * 5 ^ l → r ≤ x * 3 ^ k * 5 ^ l := by
  intro f
  induction f with
  | zero => intro x best _ hf; omega
  | succ f ih =>
    intro x best hx hf hn h2
    unfold gs3
    by_cases h : x < best
    · rw [if_pos h]
      obtain ⟨b, hb, b1, b2, b3, b4⟩ := gs5_spec n (2 * n + 1) x best hx (by omega) hn
      rw [hb, ok_bind]
      obtain ⟨r, hr, r1, r2, r3, r4⟩ := ih (x * 3) b (by omega) (by clear b3 b4; omega) b1 (by omega)
      refine ⟨r, hr, r1, by omega, ?_, fun k l hk => ?_⟩
      · rcases r3 with e | ⟨k, l, e⟩
        · rcases b3 with e' | ⟨l, e'⟩
          · exact Or.inl (by omega)
          · exact Or.inr ⟨0, l, by rw [e, e']; simp⟩
        · exact Or.inr ⟨k + 1, l, by rw [e, pow_succ]; ring⟩
      · cases k with
        | zero => simp only [pow_zero, mul_one] at hk ⊢; have := b4 l hk; omega
        | succ k =>
          have e : x * 3 ^ (k + 1) * 5 ^ l = x * 3 * 3 ^ k * 5 ^ l := by rw [pow_succ]; ring
          rw [e] at hk ⊢; exact r4 k l hk
    · rw [if_neg h]
      refine ⟨best, rfl, hn, le_refl _, Or.inl rfl, fun k l _ => ?_⟩
      have h1 : x * 1 ≤ x * 3 ^ k := Nat.mul_le_mul_left _ (Nat.one_le_pow _ _ (by norm_num))
      have h2 : x * 3 ^ k * 1 ≤ x * 3 ^ k * 5 ^ l := Nat.mul_le_mul_left _ (Nat.one_le_pow _ _ (by norm_num))
      omega

theorem gs2_spec (n : ℕ) : ∀ (f x best : ℕ), 1 ≤ x → 1 + (best - x) ≤ f → n ≤ best → best ≤ 2 * n →
    ∃ r, gs2 n f x best = ok r ∧ n ≤ r ∧ r ≤ best ∧ (r = best ∨ ∃ j k l, r = x * 2 ^ j * 3 ^ k * 5 ^ l) ∧
      ∀ j k l, n ≤ x * 2 ^ j * 3 ^ k * 5 ^ l → r ≤ x * 2 ^ j * 3 ^ k * 5 ^ l := by
  intro f
  induction f with
  | zero => intro x best _ hf; omega
  | succ f ih =>
    intro x best hx hf hn h2
    unfold gs2
    by_cases h : x < best
    · rw [if_pos h]
      obtain ⟨b, hb, b1, b2, b3, b4⟩ := gs3_spec n (2 * n + 1) x best hx (by omega) hn h2
      rw [hb, ok_bind]
      obtain ⟨r, hr, r1, r2, r3, r4⟩ := ih (x * 2) b (by omega) (by clear b3 b4; omega) b1 (by omega)
      refine ⟨r, hr, r1, by omega, ?_, fun j k l hk => ?_⟩
      · rcases r3 with e | ⟨j, k, l, e⟩
        · rcases b3 with e' | ⟨k, l, e'⟩
          · exact Or.inl (by omega)
          · exact Or.inr ⟨0, k, l, by rw [e, e']; simp⟩
        · exact Or.inr ⟨j + 1, k, l, by rw [e, pow_succ]; ring⟩
      · cases j with
        | zero => simp only [pow_zero, mul_one] at hk ⊢; have := b4 k l hk; omega
        | succ j =>
          have e : x * 2 ^ (j + 1) * 3 ^ k * 5 ^ l = x * 2 * 2 ^ j * 3 ^ k * 5 ^ l := by rw [pow_succ]; ring
          rw [e] at hk ⊢; exact r4 j k l hk
    · rw [if_neg h]
      refine ⟨best, rfl, hn, le_refl _, Or.inl rfl, fun j k l _ => ?_⟩
      have h0 : x * 1 ≤ x * 2 ^ j := Nat.mul_le_mul_left _ (Nat.one_le_pow _ _ (by norm_num))
      have h1 : x * 2 ^ j * 1 ≤ x * 2 ^ j * 3 ^ k := Nat.mul_le_mul_left _ (Nat.one_le_pow _ _ (by norm_num))
      have h2 : x * 2 ^ j * 3 ^ k * 1 ≤ x * 2 ^ j * 3 ^ k * 5 ^ l := Nat.mul_le_mul_left _ (Nat.one_le_pow _ _ (by norm_num))
      omega

/-- There is a power of two in `[n, 2n)`. -/
theorem pow2_between (n : ℕ) (h : 1 ≤ n) : ∃ j, n ≤ 2 ^ j ∧ 2 ^ j < 2 * n := by
  induction n with
  | zero => omega
  | succ n ih =>
    rcases Nat.eq_zero_or_pos n with rfl | hp
    · exact ⟨0, by norm_num, by norm_num⟩
    obtain ⟨j, a, b⟩ := ih hp
    by_cases e : 2 ^ j = n
    · exact ⟨j + 1, by rw [pow_succ]; omega, by rw [pow_succ]; omega⟩
    · exact ⟨j, by omega, by omega⟩

theorem goodSize_spec (n : ℕ) (h1 : 1 ≤ n) : ∃ r, goodSize n = ok r ∧ n ≤ r ∧ r < 2 * n ∧ (∃ j k l, r = 2 ^ j * 3 ^ k * 5 ^ l) ∧
    ∀ j k l : ℕ, n ≤ 2 ^ j * 3 ^ k * 5 ^ l → r ≤ 2 ^ j * 3 ^ k * 5 ^ l := by
  unfold goodSize
  by_cases h6 : n ≤ 6
  · rw [if_pos h6]
    refine ⟨n, rfl, le_refl _, by omega, ?_, fun j k l h => h⟩
    obtain rfl | rfl | rfl | rfl | rfl | rfl : n = 1 ∨ n = 2 ∨ n = 3 ∨ n = 4 ∨ n = 5 ∨ n = 6 := by omega
    exacts [⟨0, 0, 0, rfl⟩, ⟨1, 0, 0, rfl⟩, ⟨0, 1, 0, rfl⟩, ⟨2, 0, 0, rfl⟩, ⟨0, 0, 1, rfl⟩, ⟨1, 1, 0, rfl⟩]
  · rw [if_neg h6]
    obtain ⟨r, hr, r1, r2, r3, r4⟩ := gs2_spec n (2 * n + 1) 1 (2 * n) (le_refl _) (by omega) (by omega) (le_refl _)
    obtain ⟨j, a, b⟩ := pow2_between n h1
    have hlt : r ≤ 2 ^ j := by simpa using r4 j 0 0 (by simpa using a)
    refine ⟨r, hr, r1, by omega, ?_, fun j k l h => ?_⟩
    · rcases r3 with e | ⟨j, k, l, e⟩
      · omega
      · exact ⟨j, k, l, by simpa using e⟩
    · simpa using r4 j k l (by simpa using h)

end Verif.Fft
