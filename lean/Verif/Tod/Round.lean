import Verif.Tod.Float

/-!
# C58: rounding errors of the interpolation

A calculus for the standard model of floating-point arithmetic: the result of every operation is rounded with relative error at
most `u` (for binary64, `u = 2^-53`; overflow and underflow are excluded).  `Near a x A X`: the computed `a` approximates `x`,
`|x| ≤ X` and `|a - x| ≤ A - X`.  The pairs `(A, X)` combine like the terms of an expression in which every coefficient is
replaced by its magnitude.
-/

namespace Verif.Tod
open Verif Res Finset FP

/-- The standard model: relative error at most `u` in every operation. -/
structure RelErr (rnd : ℝ → ℝ) (u : ℝ) : Prop where
  nonneg : 0 ≤ u
  rel : ∀ x, |rnd x - x| ≤ u * |x|

def Near (a x A X : ℝ) : Prop := |x| ≤ X ∧ |a - x| ≤ A - X

namespace Near

variable {a b x y A B X Y u : ℝ} {rnd : ℝ → ℝ}

theorem X_nonneg (h : Near a x A X) : 0 ≤ X := (abs_nonneg _).trans h.1
theorem le (h : Near a x A X) : X ≤ A := by have := (abs_nonneg _).trans h.2; linarith
theorem A_nonneg (h : Near a x A X) : 0 ≤ A := h.X_nonneg.trans h.le
theorem abs_le (h : Near a x A X) : |a| ≤ A := by
  have h1 := h.1
  have h2 := h.2
  have := abs_add_le (a - x) x
  rw [sub_add_cancel] at this
  linarith

theorem exact (x : ℝ) : Near x x |x| |x| := ⟨le_rfl, by simp⟩

theorem mono (h : Near a x A X) {A' : ℝ} (hA : A ≤ A') : Near a x A' X := ⟨h.1, h.2.trans (by linarith)⟩

/-- Both majorants may be enlarged if the difference does not shrink. -/
theorem mono2 (h : Near a x A X) {A' X' : ℝ} (hX : X ≤ X') (hA : A - X ≤ A' - X') : Near a x A' X' := ⟨h.1.trans hX, h.2.trans hA⟩

theorem round (hr : RelErr rnd u) (h : Near a x A X) : Near (rnd a) x (A * (1 + u)) X := by
  refine ⟨h.1, ?_⟩
  have h1 := hr.rel a
  have h2 := h.2
  have h3 : u * |a| ≤ u * A := mul_le_mul_of_nonneg_left h.abs_le hr.nonneg
  have := abs_add_le (rnd a - a) (a - x)
  rw [sub_add_sub_cancel] at this
  linarith

theorem add (h : Near a x A X) (g : Near b y B Y) : Near (a + b) (x + y) (A + B) (X + Y) := by
  refine ⟨(abs_add_le _ _).trans (add_le_add h.1 g.1), ?_⟩
  rw [show a + b - (x + y) = (a - x) + (b - y) by ring]
  refine (abs_add_le _ _).trans ?_
  have := h.2; have := g.2
  linarith

theorem neg (g : Near b y B Y) : Near (-b) (-y) B Y := by
  refine ⟨by rw [abs_neg]; exact g.1, ?_⟩
  rw [show -b - -y = -(b - y) by ring, abs_neg]
  exact g.2

theorem sub (h : Near a x A X) (g : Near b y B Y) : Near (a - b) (x - y) (A + B) (X + Y) := by
  rw [sub_eq_add_neg, sub_eq_add_neg]; exact h.add g.neg

theorem mul (h : Near a x A X) (g : Near b y B Y) : Near (a * b) (x * y) (A * B) (X * Y) := by
  refine ⟨by rw [abs_mul]; exact mul_le_mul h.1 g.1 (abs_nonneg _) h.X_nonneg, ?_⟩
  rw [show a * b - x * y = (a - x) * b + x * (b - y) by ring]
  refine (abs_add_le _ _).trans ?_
  rw [abs_mul, abs_mul]
  have h1 : |a - x| * |b| ≤ (A - X) * B := mul_le_mul h.2 g.abs_le (abs_nonneg _) (by have := h.le; linarith)
  have h2 : |x| * |b - y| ≤ X * (B - Y) := mul_le_mul h.1 g.2 (abs_nonneg _) h.X_nonneg
  nlinarith

end Near

variable {rnd : ℝ → ℝ} {u : ℝ} {N0 : ℕ}

theorem RelErr.zero (h : RelErr rnd u) : rnd 0 = 0 := by
  have := h.rel 0
  simpa using this

/-! ## sums -/

/-- A loop that adds approximations one after the other. -/
theorem near_sum (hr : RelErr rnd u) (n : ℕ) {f : ℕ → FP rnd → Res (FP rnd)} {g : ℕ → FP rnd} {x A X : ℕ → ℝ}
    (hf : ∀ i < n, ∀ acc, f i acc = ok (Arith.add acc (g i))) (hg : ∀ i < n, Near (g i).val (x i) (A i) (X i))
    {a : FP rnd} {a0 A0 X0 : ℝ} (ha : Near a.val a0 A0 X0) :
    ∃ r, forN n f a = ok r ∧ Near r.val (a0 + ∑ i ∈ range n, x i) ((1 + u) ^ n * (A0 + ∑ i ∈ range n, A i))
      (X0 + ∑ i ∈ range n, X i) := by
  induction n with
  | zero => exact ⟨a, rfl, by simpa using ha⟩
  | succ n ih =>
    obtain ⟨r, h1, h2⟩ := ih (fun i hi => hf i (by omega)) (fun i hi => hg i (by omega))
    refine ⟨Arith.add r (g n), by rw [forN_succ, h1, ok_bind, hf n (by omega)], ?_⟩
    have h3 := (h2.add (hg n (by omega))).round hr
    rw [add_val, sum_range_succ, sum_range_succ, sum_range_succ, ← add_assoc, ← add_assoc, ← add_assoc]
    refine h3.mono ?_
    have hu := hr.nonneg
    have hA := (hg n (by omega)).A_nonneg
    have h1u : (1 : ℝ) ≤ (1 + u) ^ n := one_le_pow₀ (by linarith)
    have : A n * 1 ≤ A n * (1 + u) ^ n := mul_le_mul_of_nonneg_left h1u hA
    have h4 : (A n * 1) * (1 + u) ≤ (A n * (1 + u) ^ n) * (1 + u) := mul_le_mul_of_nonneg_right this (by linarith)
    rw [pow_succ]
    nlinarith

/-! ## weights -/

/-- The exponent of `1 + u` for a product of `n` approximate factors. -/
theorem near_prod_step (hr : RelErr rnd u) {a b x y P Q p q : ℝ} {i : ℕ} (h : Near a x ((1 + u) ^ i * P) p)
    (g : Near b y ((1 + u) * Q) q) : Near (rnd (a * b)) (x * y) ((1 + u) ^ (i + 2) * (P * Q)) (p * q) :=
  ((h.mul g).round hr).mono (le_of_eq (by ring))

/-- Bound on the error of the factors `x - k` as the code computes them. -/
noncomputable def factorErr (N : ℕ) (u δ : ℝ) : ℝ := δ + u * (2 + u) * (N + 1)

/-- Setting for the weights: the offset `x'` used by the code approximates `x` up to `δ`; small integers are exact. -/
structure WSet (rnd : ℝ → ℝ) (u : ℝ) (N0 : ℕ) (N : ℕ) (x' x δ : ℝ) : Prop where
  r : Rounding rnd N0
  e : RelErr rnd u
  near : |x' - x| ≤ δ
  lo : -1 ≤ x'
  hi : x' ≤ N
  fact : (N - 1).factorial ≤ N0
  small : N ≤ N0

variable {N : ℕ} {x' x δ : ℝ}

theorem WSet.delta (h : WSet rnd u N0 N x' x δ) : 0 ≤ δ := (abs_nonneg _).trans h.near

theorem WSet.eta (h : WSet rnd u N0 N x' x δ) : δ ≤ factorErr N u δ := by
  have := h.e.nonneg
  unfold factorErr
  have : 0 ≤ u * (2 + u) * (N + 1) := by positivity
  linarith

theorem WSet.int (h : WSet rnd u N0 N x' x δ) {k : ℕ} (hk : k ≤ N) : rnd (k : ℝ) = k := by
  have := h.r.int_exact (k : ℤ) (by have := h.small; simp; omega)
  simpa using this

theorem near_of_err {a x e : ℝ} (h : |a - x| ≤ e) : Near a x (|x| + e) |x| := ⟨le_rfl, by linarith⟩

theorem WSet.factor0 (h : WSet rnd u N0 N x' x δ) : Near x' x ((1 + u) * (|x| + factorErr N u δ)) |x| := by
  refine (near_of_err h.near).mono ?_
  have h1 := h.eta
  have h2 := h.e.nonneg
  have h3 := h.delta
  have : 0 ≤ u * (|x| + factorErr N u δ) := mul_nonneg h2 (add_nonneg (abs_nonneg _) (h3.trans h1))
  nlinarith

theorem WSet.factorUp (h : WSet rnd u N0 N x' x δ) {k : ℕ} (hk : k ≤ N) :
    Near (rnd (x' - rnd ((k : ℤ) : ℝ))) (x - k) ((1 + u) * (|x - k| + factorErr N u δ)) |x - k| := by
  have e : rnd ((k : ℤ) : ℝ) = k := by have := h.int hk; simpa using this
  rw [e]
  have h1 : |x' - k - (x - k)| ≤ δ := by rw [show x' - k - (x - k) = x' - x by ring]; exact h.near
  refine ((near_of_err h1).round h.e).mono ?_
  have h2 := h.eta
  have h3 := h.e.nonneg
  rw [mul_comm]
  exact mul_le_mul_of_nonneg_left (by linarith) (by linarith)

/-- `doffset = (x - N) + 1` as computed. -/
theorem WSet.doffset (h : WSet rnd u N0 N x' x δ) :
    |rnd (rnd (x' - rnd ((N : ℤ) : ℝ)) + rnd ((1 : ℤ) : ℝ)) - (x - N + 1)| ≤ factorErr N u δ := by
  have e : rnd ((N : ℤ) : ℝ) = N := by have := h.int le_rfl; simpa using this
  have h0 := h.e.nonneg
  rw [e]
  have hlo := h.lo
  have hhi := h.hi
  have h1 := h.e.rel (x' - N)
  have a1 : |x' - N| ≤ N + 1 := by rw [abs_le]; constructor <;> linarith
  have hr1 : rnd ((1 : ℤ) : ℝ) = 1 := by
    by_cases hN : 1 ≤ N
    · have := h.int hN; simpa using this
    · have hN : N = 0 := by omega
      have := h.fact
      rw [hN] at this
      have h2 := h.r.int_exact 1 (by simp at this ⊢; omega)
      simpa using h2
  rw [hr1]
  have h1' : |rnd (x' - N) - (x' - N)| ≤ u * (N + 1) := h1.trans (mul_le_mul_of_nonneg_left a1 h0)
  have h2 := h.e.rel (rnd (x' - N) + 1)
  have a2 : |rnd (x' - N) + 1| ≤ N + 1 + u * (N + 1) := by
    have a3 : |x' - N + 1| ≤ N + 1 := by rw [abs_le]; constructor <;> linarith
    have := abs_add_le (rnd (x' - N) - (x' - N)) (x' - N + 1)
    rw [show rnd (x' - N) - (x' - N) + (x' - N + 1) = rnd (x' - N) + 1 by ring] at this
    linarith
  have h2' := h2.trans (mul_le_mul_of_nonneg_left a2 h0)
  have := h.near
  unfold factorErr
  have t1 := abs_add_le (rnd (rnd (x' - N) + 1) - (rnd (x' - N) + 1)) (rnd (x' - N) - (x' - N) + (x' - x))
  have t2 := abs_add_le (rnd (x' - N) - (x' - N)) (x' - x)
  rw [show rnd (rnd (x' - N) + 1) - (rnd (x' - N) + 1) + (rnd (x' - N) - (x' - N) + (x' - x)) =
    rnd (rnd (x' - N) + 1) - (x - N + 1) by ring] at t1
  nlinarith

theorem WSet.factorDown0 (h : WSet rnd u N0 N x' x δ) :
    Near (rnd (rnd (x' - rnd ((N : ℤ) : ℝ)) + rnd ((1 : ℤ) : ℝ))) (x - N + 1) ((1 + u) * (|x - N + 1| + factorErr N u δ)) |x - N + 1| := by
  refine (near_of_err h.doffset).mono ?_
  have h0 := h.e.nonneg
  have : 0 ≤ u * (|x - N + 1| + factorErr N u δ) := mul_nonneg h0 (add_nonneg (abs_nonneg _) (h.delta.trans h.eta))
  linarith

theorem WSet.factorDown (h : WSet rnd u N0 N x' x δ) {k : ℕ} (hk : k ≤ N) :
    Near (rnd (rnd (rnd (x' - rnd ((N : ℤ) : ℝ)) + rnd ((1 : ℤ) : ℝ)) + rnd ((k : ℤ) : ℝ))) (x - N + 1 + k)
      ((1 + u) * (|x - N + 1 + k| + factorErr N u δ)) |x - N + 1 + k| := by
  have e : rnd ((k : ℤ) : ℝ) = k := by have := h.int hk; simpa using this
  rw [e]
  have h1 := h.doffset
  have h2 : |rnd (rnd (x' - rnd ((N : ℤ) : ℝ)) + rnd ((1 : ℤ) : ℝ)) + k - (x - N + 1 + k)| ≤ factorErr N u δ := by
    rw [add_sub_add_right_eq_sub]; exact h1
  exact ((near_of_err h2).round h.e).mono (le_of_eq (by ring))

theorem near_up (h : WSet rnd u N0 N x' x δ) : ∀ i : ℕ, i < N →
    Near (upMul (⟨x'⟩ : FP rnd) i).val (∏ k ∈ range (i + 1), (x - k))
      ((1 + u) ^ (2 * i + 1) * ∏ k ∈ range (i + 1), (|x - k| + factorErr N u δ)) (∏ k ∈ range (i + 1), |x - k|) := by
  intro i hi
  induction i with
  | zero =>
    simp only [zero_add, prod_range_one, Nat.cast_zero, sub_zero, upMul]
    exact h.factor0.mono (le_of_eq (by ring))
  | succ i ih =>
    rw [prod_range_succ, prod_range_succ _ (i + 1), prod_range_succ (fun k : ℕ => |x - k|) (i + 1)]
    have h1 := near_prod_step h.e (ih (by omega)) (h.factorUp (k := i + 1) (by omega))
    rw [upMul]
    simp only [mul_val, sub_val, ofInt_val]
    push_cast at h1 ⊢
    exact h1.mono (le_of_eq (by ring))

theorem near_down (h : WSet rnd u N0 N x' x δ) : ∀ i : ℕ, i < N →
    Near (downMul N (⟨x'⟩ : FP rnd) i).val (∏ k ∈ Ico (N - 1 - i) N, (x - k))
      ((1 + u) ^ (2 * i + 1) * ∏ k ∈ Ico (N - 1 - i) N, (|x - k| + factorErr N u δ)) (∏ k ∈ Ico (N - 1 - i) N, |x - k|) := by
  intro i hi
  induction i with
  | zero =>
    have hI : Ico (N - 1 - 0) N = {N - 1} := by ext k; simp; omega
    rw [hI, prod_singleton, prod_singleton, prod_singleton, downMul]
    have e : x - ((N - 1 : ℕ) : ℝ) = x - N + 1 := by rw [Nat.cast_sub (by omega)]; push_cast; ring
    rw [e]
    simp only [add_val, sub_val, ofInt_val]
    exact h.factorDown0.mono (le_of_eq (by ring))
  | succ i ih =>
    have hI : Ico (N - 1 - (i + 1)) N = insert (N - 1 - (i + 1)) (Ico (N - 1 - i) N) := by
      ext k; simp only [mem_Ico, mem_insert]; omega
    have hn : N - 1 - (i + 1) ∉ Ico (N - 1 - i) N := by simp; omega
    rw [hI, prod_insert hn, prod_insert hn, prod_insert hn, downMul]
    have e : x - ((N - 1 - (i + 1) : ℕ) : ℝ) = x - N + 1 + ((i + 1 : ℕ) : ℝ) := by
      rw [Nat.cast_sub (by omega), Nat.cast_sub (by omega)]; push_cast; ring
    rw [e]
    have h1 := near_prod_step h.e (ih (by omega)) (h.factorDown (k := i + 1) (by omega))
    simp only [mul_val, add_val, sub_val, ofInt_val]
    push_cast at h1 ⊢
    rw [mul_comm (x - N + 1 + ((i : ℝ) + 1)), mul_comm |x - N + 1 + ((i : ℝ) + 1)|]
    exact h1.mono (le_of_eq (by ring))

/-! ### the constants of the weights -/

/-- A product of integers all of whose partial products are exactly representable. -/
theorem foldl_exact (h : Rounding rnd N0) (d : ℕ → ℤ) : ∀ (l : List ℕ) (z : ℤ), (∀ n ∈ l, d n ≠ 0) → z ≠ 0 →
    |z * (l.map d).prod| ≤ N0 →
    l.foldl (fun (w : FP rnd) n => Arith.mul w (Arith.ofInt (d n))) ⟨(z : ℝ)⟩ = ⟨((z * (l.map d).prod : ℤ) : ℝ)⟩ := by
  intro l
  induction l with
  | nil => intro z _ _ _; simp
  | cons b l ih =>
    intro z hd hz hle
    have hb : d b ≠ 0 := hd b (by simp)
    have hl : (l.map d).prod ≠ 0 := by
      rw [Ne, List.prod_eq_zero_iff]
      simp only [List.mem_map, not_exists, not_and]
      exact fun n hn => hd n (by simp [hn])
    simp only [List.map_cons, List.prod_cons] at hle ⊢
    rw [← mul_assoc, abs_mul] at hle
    have h1 : |z * d b| ≤ N0 := by
      have : 1 ≤ |(l.map d).prod| := Int.one_le_abs hl
      have h2 := abs_nonneg (z * d b)
      nlinarith
    have h2 : |d b| ≤ N0 := by
      rw [abs_mul] at h1
      have : 1 ≤ |z| := Int.one_le_abs hz
      have h3 := abs_nonneg (d b)
      nlinarith
    rw [List.foldl_cons]
    have h3 : (Arith.mul (⟨(z : ℝ)⟩ : FP rnd) (Arith.ofInt (d b))) = ⟨((z * d b : ℤ) : ℝ)⟩ := by
      show (⟨rnd ((z : ℝ) * rnd ((d b : ℤ) : ℝ))⟩ : FP rnd) = _
      rw [h.int_exact _ h2, ← Int.cast_mul, h.int_exact _ h1]
    rw [h3, ih (z * d b) (fun n hn => hd n (by simp [hn])) (mul_ne_zero hz hb) (by rw [abs_mul]; exact hle), mul_assoc]

theorem prod_up (m : ℕ) : ((List.range m).map (fun n : ℕ => (m : ℤ) - n)).prod = m.factorial := by
  rw [← Nat.descFactorial_self, Nat.descFactorial_eq_prod_range, ← List.prod_toFinset _ List.nodup_range, List.toFinset_range]
  push_cast
  refine prod_congr rfl (fun k hk => ?_)
  rw [mem_range] at hk
  omega

theorem prod_down (m len : ℕ) : |((List.range' (m + 1) len).map (fun n : ℕ => (m : ℤ) - n)).prod| = len.factorial := by
  induction len with
  | zero => simp
  | succ len ih =>
    rw [List.range'_concat, List.map_append, List.prod_append, abs_mul, ih, Nat.factorial_succ]
    simp only [List.map_cons, List.map_nil, List.prod_cons, List.prod_nil, mul_one, one_mul]
    have : |(m : ℤ) - ((m + 1 + len : ℕ) : ℤ)| = len + 1 := by
      rw [abs_of_nonpos (by push_cast; omega)]; push_cast; ring
    rw [this]; push_cast; ring

/-- `base_wgt[m]` has relative error at most `u`. -/
theorem near_base (hr : Rounding rnd N0) (he : RelErr rnd u) {m : ℕ} (hm : m < N) (hf : (N - 1).factorial ≤ N0) :
    Near (baseWgt1 N m : FP rnd).val (baseWgt1 N m : ℝ) (|(baseWgt1 N m : ℝ)| * (1 + u)) |(baseWgt1 N m : ℝ)| := by
  have hlen : N - (m + 1) = N - 1 - m := by omega
  have hfin : m.factorial * (N - 1 - m).factorial ≤ N0 := by
    have h1 := Nat.le_of_dvd (Nat.factorial_pos _) (Nat.factorial_mul_factorial_dvd_factorial_add m (N - 1 - m))
    rw [show m + (N - 1 - m) = N - 1 by omega] at h1
    omega
  have h1le : 1 ≤ (N - 1 - m).factorial := Nat.factorial_pos _
  have h1le' : 1 ≤ m.factorial := Nat.factorial_pos _
  have hN0 : 1 ≤ N0 := by nlinarith
  have one : (Arith.ofInt 1 : FP rnd) = ⟨((1 : ℤ) : ℝ)⟩ := by
    show (⟨rnd ((1 : ℤ) : ℝ)⟩ : FP rnd) = _
    rw [hr.int_exact 1 (by simp; omega)]
  have e1 : (List.range m).foldl (fun (w : FP rnd) (n : ℕ) => Arith.mul w (Arith.ofInt ((m : ℤ) - n))) (Arith.ofInt 1) =
      ⟨((m.factorial : ℤ) : ℝ)⟩ := by
    rw [one, foldl_exact hr (fun n : ℕ => (m : ℤ) - n) (List.range m) 1 (fun n hn => by rw [List.mem_range] at hn; omega) one_ne_zero
      (by rw [prod_up, one_mul, abs_of_nonneg (by positivity)]; have : m.factorial ≤ N0 := by nlinarith
          exact_mod_cast this), prod_up, one_mul]
  set Q : ℤ := (m.factorial : ℤ) * ((List.range' (m + 1) (N - (m + 1))).map (fun n : ℕ => (m : ℤ) - n)).prod with hQ
  have e2 : (List.range' (m + 1) (N - (m + 1))).foldl (fun (w : FP rnd) (n : ℕ) => Arith.mul w (Arith.ofInt ((m : ℤ) - n)))
      ⟨((m.factorial : ℤ) : ℝ)⟩ = ⟨(Q : ℝ)⟩ := by
    rw [foldl_exact hr (fun n : ℕ => (m : ℤ) - n) _ _ (fun n hn => by rw [List.mem_range'_1] at hn; omega) (by positivity)
      (by rw [abs_mul, prod_down, hlen, abs_of_nonneg (by positivity)]; exact_mod_cast hfin)]
  have c1 : (baseWgt1 N m : FP rnd).val = rnd (1 / Q) := by
    unfold baseWgt1
    dsimp only
    rw [e1, e2]
    simp only [div_val]
    rw [one]; simp
  have c2 : (baseWgt1 N m : ℝ) = 1 / Q := by
    unfold baseWgt1
    dsimp only
    simp only [RealArith.ofInt_def, RealArith.div_def]
    rw [foldl_mul_real (fun n : ℕ => (((m : ℤ) - n : ℤ) : ℝ)), foldl_mul_real (fun n : ℕ => (((m : ℤ) - n : ℤ) : ℝ))]
    have q1 : ((List.range m).map (fun n : ℕ => (((m : ℤ) - n : ℤ) : ℝ))).prod = ((m.factorial : ℤ) : ℝ) := by
      rw [← prod_up, Int.cast_list_prod, List.map_map]; rfl
    have q2 : ((List.range' (m + 1) (N - (m + 1))).map (fun n : ℕ => (((m : ℤ) - n : ℤ) : ℝ))).prod =
        ((((List.range' (m + 1) (N - (m + 1))).map (fun n : ℕ => (m : ℤ) - n)).prod : ℤ) : ℝ) := by
      rw [Int.cast_list_prod, List.map_map]; rfl
    rw [q1, q2, hQ]
    push_cast
    ring
  rw [c1, c2]
  exact (Near.exact _).round he

/-! ### the weights -/

/-- Bound on the magnitude of the computed weight of node `m` at offset `x`: like the weight, with the distances to the nodes
increased by `η` and a factor `1 + u` for each operation. -/
noncomputable def wgtHat (N : ℕ) (u η x : ℝ) (m : ℕ) : ℝ :=
  (1 + u) ^ (2 * N + 1) * ∏ k ∈ (range N).erase m, ((|x - k| + η) / |(m : ℝ) - k|)

theorem near_wgt (h : WSet rnd u N0 N x' x δ) {m : ℕ} (hm : m < N) :
    Near (wgt N (⟨x'⟩ : FP rnd) m).val (wgt N x m) (wgtHat N u (factorErr N u δ) x m) |wgt N x m| := by
  have hu := h.e.nonneg
  have hη : 0 ≤ factorErr N u δ := h.delta.trans h.eta
  have hb := near_base h.r h.e hm h.fact
  set η := factorErr N u δ with hηd
  -- with the first loop
  have h1 : Near (if 1 ≤ m then Arith.mul (baseWgt1 N m) (upMul (⟨x'⟩ : FP rnd) (m - 1)) else baseWgt1 N m).val
      ((baseWgt1 N m : ℝ) * ∏ k ∈ range m, (x - k))
      (|(baseWgt1 N m : ℝ)| * ((1 + u) ^ (2 * m + 1) * ∏ k ∈ range m, (|x - k| + η)))
      (|(baseWgt1 N m : ℝ)| * ∏ k ∈ range m, |x - k|) := by
    split
    · rename_i h1
      have h2 := near_up h (m - 1) (by omega)
      rw [Nat.sub_add_cancel h1] at h2
      rw [mul_val]
      refine ((hb.mul h2).round h.e).mono (le_of_eq ?_)
      rw [show 2 * (m - 1) + 1 = 2 * m - 1 by omega, show (2 * m + 1) = (2 * m - 1) + 1 + 1 by omega, pow_succ, pow_succ]
      ring
    · rename_i h1
      have : m = 0 := by omega
      subst this
      simpa using hb
  have h2 : Near (wgt N (⟨x'⟩ : FP rnd) m).val ((baseWgt1 N m : ℝ) * (∏ k ∈ range m, (x - k)) * ∏ k ∈ Ico (m + 1) N, (x - k))
      (|(baseWgt1 N m : ℝ)| * ((1 + u) ^ (2 * N + 1) * ((∏ k ∈ range m, (|x - k| + η)) * ∏ k ∈ Ico (m + 1) N, (|x - k| + η))))
      (|(baseWgt1 N m : ℝ)| * (∏ k ∈ range m, |x - k|) * ∏ k ∈ Ico (m + 1) N, |x - k|) := by
    unfold wgt
    dsimp only
    have hp : ∀ s : Finset ℕ, 0 ≤ ∏ k ∈ s, (|x - k| + η) := fun s => prod_nonneg (fun k _ => add_nonneg (abs_nonneg _) hη)
    split
    · rename_i h3
      have h4 := near_down h (N - 2 - m) (by omega)
      rw [show N - 1 - (N - 2 - m) = m + 1 by omega] at h4
      rw [mul_val]
      refine ((h1.mul h4).round h.e).mono ?_
      have : (1 + u) ^ (2 * m + 1) * (1 + u) ^ (2 * (N - 2 - m) + 1) * (1 + u) ≤ (1 + u) ^ (2 * N + 1) := by
        rw [← pow_add, ← pow_succ]
        exact pow_le_pow_right₀ (by linarith) (by omega)
      have h5 := mul_le_mul_of_nonneg_right this (mul_nonneg (abs_nonneg (baseWgt1 N m : ℝ)) (mul_nonneg (hp (range m)) (hp (Ico (m + 1) N))))
      refine le_trans (le_of_eq ?_) (h5.trans (le_of_eq ?_)) <;> ring
    · rename_i h3
      have : Ico (m + 1) N = ∅ := by rw [Ico_eq_empty_iff]; omega
      rw [this, prod_empty, prod_empty, prod_empty, mul_one, mul_one, mul_one]
      refine h1.mono ?_
      have : (1 + u) ^ (2 * m + 1) ≤ (1 + u) ^ (2 * N + 1) := pow_le_pow_right₀ (by linarith) (by omega)
      exact mul_le_mul_of_nonneg_left (mul_le_mul_of_nonneg_right this (hp _)) (abs_nonneg _)
  have hsplit : (range N).erase m = range m ∪ Ico (m + 1) N := by
    ext k; simp only [mem_erase, mem_range, mem_union, mem_Ico]; omega
  have hdisj : Disjoint (range m) (Ico (m + 1) N) := by
    rw [Finset.disjoint_left]; intro k h1 h2; simp only [mem_range, mem_Ico] at h1 h2; omega
  have ew : wgt N x m = (baseWgt1 N m : ℝ) * (∏ k ∈ range m, (x - k)) * ∏ k ∈ Ico (m + 1) N, (x - k) := by
    rw [wgt_real N x m hm, baseWgt1_real N m hm, hsplit, prod_union hdisj, prod_div_distrib, prod_div_distrib, div_eq_mul_inv,
      div_eq_mul_inv]
    ring
  have ehat : wgtHat N u η x m =
      |(baseWgt1 N m : ℝ)| * ((1 + u) ^ (2 * N + 1) * ((∏ k ∈ range m, (|x - k| + η)) * ∏ k ∈ Ico (m + 1) N, (|x - k| + η))) := by
    unfold wgtHat
    rw [baseWgt1_real N m hm, hsplit, prod_union hdisj, prod_div_distrib, prod_div_distrib, abs_mul, abs_inv, abs_inv, abs_prod, abs_prod,
      div_eq_mul_inv, div_eq_mul_inv]
    ring
  rw [ehat, ew, abs_mul, abs_mul, abs_prod, abs_prod]
  exact h2

end Verif.Tod
