import Verif.Base.Res
import Verif.Num.WignerD
import Mathlib.Tactic.FieldSimp

/-!
# Risbo recursion for the Wigner matrices (C47): the model and the two-term identity

levels/cxxsupport/wigner.cc:97-264, ls_wigner.h:46-115.  Exact arithmetic in place of `double`.
-/

namespace Verif.Risbo

open Verif Res Verif.Num

/-- `arr2<double>`, ls_arr.h: a table with `n1` rows of `n2` entries. -/
structure A2 where
  n1 : ℕ
  n2 : ℕ
  v : ℕ → ℕ → ℝ

/-- `a[k][i]`.  Both indices are checked here (an `arr2` is one block of memory, so C++ would tolerate a column index past the end
of a row that is not the last: the check is stricter than C++). -/
def A2.get (a : A2) (k i : ℤ) : Res ℝ :=
  if 0 ≤ k ∧ k < a.n1 ∧ 0 ≤ i ∧ i < a.n2 then ok (a.v k.toNat i.toNat) else ub "arr2 read out of bounds"

/-- The table after an assignment to one entry. -/
def A2.upd (a : A2) (k i : ℕ) (x : ℝ) : A2 :=
  { a with v := fun k' i' => if k' = k ∧ i' = i then x else a.v k' i' }

/-- `a[k][i] = x`. -/
def A2.put (a : A2) (k i : ℤ) (x : ℝ) : Res A2 :=
  if 0 ≤ k ∧ k < a.n1 ∧ 0 ≤ i ∧ i < a.n2 then ok (a.upd k.toNat i.toNat x) else ub "arr2 write out of bounds"

theorem A2.get_ok {a : A2} {k i : ℕ} (hk : k < a.n1) (hi : i < a.n2) : a.get k i = ok (a.v k i) := by
  unfold A2.get; rw [if_pos ⟨by omega, by omega, by omega, by omega⟩]; rfl

theorem A2.get_ok' {a : A2} {k i : ℤ} (k' i' : ℕ) (ek : k = k') (ei : i = i') (hk : k' < a.n1) (hi : i' < a.n2) :
    a.get k i = ok (a.v k' i') := by
  subst ek ei; exact A2.get_ok hk hi

theorem A2.put_ok {a : A2} {k i : ℕ} (x : ℝ) (hk : k < a.n1) (hi : i < a.n2) : a.put k i x = ok (a.upd k i x) := by
  unfold A2.put; rw [if_pos ⟨by omega, by omega, by omega, by omega⟩]; rfl

theorem A2.put_ok' {a : A2} {k i : ℤ} (x : ℝ) (k' i' : ℕ) (ek : k = k') (ei : i = i') (hk : k' < a.n1) (hi : i' < a.n2) :
    a.put k i x = ok (a.upd k' i' x) := by
  subst ek ei; exact A2.put_ok x hk hi

@[simp] theorem A2.upd_n1 (a : A2) (k i x) : (a.upd k i x).n1 = a.n1 := rfl
@[simp] theorem A2.upd_n2 (a : A2) (k i x) : (a.upd k i x).n2 = a.n2 := rfl
theorem A2.upd_self (a : A2) (k i x) : (a.upd k i x).v k i = x := by unfold A2.upd; simp
theorem A2.upd_ne (a : A2) {k i k' i' : ℕ} (x) (h : k' ≠ k ∨ i' ≠ i) : (a.upd k i x).v k' i' = a.v k' i' := by
  unfold A2.upd; simp only; rw [if_neg]; intro h'; omega

/-- The table `sqt` of both constructors, wigner.cc:120 and :217: `sqt[m] = sqrt(m)` for `m ≤ 2 lmax`. -/
noncomputable def sqTab (lmax : ℕ) : List ℝ := (List.range (2 * lmax + 1)).map (fun m : ℕ => √(m : ℝ))

theorem rd_sq {lmax : ℕ} {i : ℤ} (m : ℕ) (e : i = m) (h : m ≤ 2 * lmax) : rd (sqTab lmax) i = ok √(m : ℝ) := by
  subst e
  rw [rd_nat (by unfold sqTab; simp; omega)]
  unfold sqTab; simp

/-- The members of the recursion classes, ls_wigner.h:69-72 and :106-109 (`dd` is unused by the serial class). -/
structure Rec where
  p : ℝ
  q : ℝ
  sqt : List ℝ
  d : A2
  dd : A2
  n : ℤ

/-- The constructors, wigner.cc:117-120 and :214-217, for `lmax ≥ 0`; the tables are not initialised: `junk`, `junk'` are their
arbitrary contents. -/
noncomputable def Rec.new (lmax : ℕ) (ang : ℝ) (junk junk' : ℕ → ℕ → ℝ) : Rec :=
  ⟨Real.sin (ang / 2), Real.cos (ang / 2), sqTab lmax, ⟨lmax + 1, 2 * lmax + 1, junk⟩, ⟨lmax + 1, 2 * lmax + 1, junk'⟩, -1⟩

/-- The closed form for `n == 1`, wigner.cc:129-130 and :226-227. -/
noncomputable def first (q p : ℝ) (sqt : List ℝ) (d : A2) : Res A2 := do
  let d ← d.put 0 0 (q * q)
  let s ← rd sqt 2
  let d ← d.put 0 1 (-p * q * s)
  let d ← d.put 0 2 (p * p)
  let x ← d.get 0 1
  let d ← d.put 1 0 (-x)
  let d ← d.put 1 1 (q * q - p * p)
  let x ← d.get 0 1
  d.put 1 2 x

/-- The padding loop, wigner.cc:135-140 and :232-237; `sign` is the C++ variable. -/
noncomputable def pad (n : ℕ) (d : A2) : Res A2 := do
  let r ← forN (2 * n - 1) (fun i (r : ℝ × A2) => do
    let x ← r.2.get ((n : ℤ) - 2) (2 * (n : ℤ) - 2 - i)
    let d ← r.2.put n i (r.1 * x)
    ok (-r.1, d)) (if n % 2 = 1 then (-1 : ℝ) else 1, d)
  ok r.2

/-- `wigner_d_risbo_scalar::do_line0` on row 0, wigner.cc:97-104. -/
noncomputable def doLine0 (q p : ℝ) (sqt : List ℝ) (j : ℕ) (d : A2) : Res A2 := do
  let x ← d.get 0 ((j : ℤ) - 1)
  let d ← d.put 0 j (-p * x)
  let sj ← rd sqt j
  let d ← forN (j - 1) (fun t d => do
    let i : ℤ := (j : ℤ) - 1 - t
    let sji ← rd sqt ((j : ℤ) - i)
    let si ← rd sqt i
    let x ← d.get 0 i
    let y ← d.get 0 (i - 1)
    d.put 0 i (1 / (j : ℝ) * sj * (q * sji * x - p * si * y))) d
  let x ← d.get 0 0
  d.put 0 0 (q * x)

/-- `wigner_d_risbo_scalar::do_line` with `l1` row `k-1` and `l2` row `k`, wigner.cc:105-115. -/
noncomputable def doLine (q p : ℝ) (sqt : List ℝ) (j k : ℕ) (d : A2) : Res A2 := do
  let sjk ← rd sqt ((j : ℤ) - k)
  let sk ← rd sqt k
  let xj := 1 / (j : ℝ)
  let t1 := xj * sjk * q
  let t2 := xj * sjk * p
  let t3 := xj * sk * p
  let t4 := xj * sk * q
  let sj ← rd sqt j
  let a ← d.get ((k : ℤ) - 1) ((j : ℤ) - 1)
  let b ← d.get k ((j : ℤ) - 1)
  let d ← d.put k j (sj * (t4 * a - t2 * b))
  let d ← forN (j - 1) (fun t d => do
    let i : ℤ := (j : ℤ) - 1 - t
    let sji ← rd sqt ((j : ℤ) - i)
    let si ← rd sqt i
    let a ← d.get k i
    let b ← d.get k (i - 1)
    let a' ← d.get ((k : ℤ) - 1) i
    let b' ← d.get ((k : ℤ) - 1) (i - 1)
    d.put k i (t1 * sji * a - t2 * si * b + t3 * sji * a' + t4 * si * b')) d
  let a ← d.get ((k : ℤ) - 1) 0
  let b ← d.get k 0
  d.put k 0 (sj * (t3 * a + t1 * b))

/-- The in-place step for `n ≥ 2`, wigner.cc:141-149. -/
noncomputable def scalarStep (q p : ℝ) (sqt : List ℝ) (n : ℕ) (d : A2) : Res A2 := do
  let d ← pad n d
  let d ← doLine q p sqt (2 * n - 1) n d
  let d ← forN (n - 1) (fun t d => do
    let d ← doLine q p sqt (2 * n - 1) (n - t - 1) d
    doLine q p sqt (2 * n) (n - t) d) d
  let d ← doLine0 q p sqt (2 * n - 1) d
  let d ← doLine q p sqt (2 * n) 1 d
  doLine0 q p sqt (2 * n) d

/-- `wigner_d_risbo_scalar::recurse`, wigner.cc:122-152. -/
noncomputable def Rec.scalar (r : Rec) : Res Rec := do
  let n := r.n + 1
  let d ← if n = 0 then r.d.put 0 0 1
    else if n = 1 then first r.q r.p r.sqt r.d
    else scalarStep r.q r.p r.sqt n.toNat r.d
  ok { r with d := d, n := n }

/-- Row 0 of `dd`, wigner.cc:241-244. -/
noncomputable def ompRow0 (q p : ℝ) (sqt : List ℝ) (j : ℕ) (d dd : A2) : Res A2 := do
  let x ← d.get 0 0
  let dd ← dd.put 0 0 (q * x)
  let dd ← forN (j - 1) (fun t dd => do
    let i : ℤ := t + 1
    let sj ← rd sqt j
    let sji ← rd sqt ((j : ℤ) - i)
    let si ← rd sqt i
    let x ← d.get 0 i
    let y ← d.get 0 (i - 1)
    dd.put 0 i (1 / (j : ℝ) * sj * (q * sji * x - p * si * y))) dd
  let x ← d.get 0 ((j : ℤ) - 1)
  dd.put 0 j (-p * x)

/-- One assignment `dd[k][i] = …` of the parallel loop, wigner.cc:251-257: the three cases of `i`.  It reads `d` only. -/
noncomputable def ompCell (q p : ℝ) (sqt : List ℝ) (j : ℕ) (d dd : A2) (k i : ℕ) : Res A2 := do
  let sjk ← rd sqt ((j : ℤ) - k)
  let sk ← rd sqt k
  let xj := 1 / (j : ℝ)
  let t1 := xj * sjk * q
  let t2 := xj * sjk * p
  let t3 := xj * sk * p
  let t4 := xj * sk * q
  if i = 0 then do
    let sj ← rd sqt j
    let a ← d.get k 0
    let b ← d.get ((k : ℤ) - 1) 0
    dd.put k 0 (xj * sj * (q * sjk * a + p * sk * b))
  else if i < j then do
    let sji ← rd sqt ((j : ℤ) - i)
    let si ← rd sqt i
    let a ← d.get k i
    let b ← d.get k ((i : ℤ) - 1)
    let a' ← d.get ((k : ℤ) - 1) i
    let b' ← d.get ((k : ℤ) - 1) ((i : ℤ) - 1)
    dd.put k i (t1 * sji * a - t2 * si * b + t3 * sji * a' + t4 * si * b')
  else do
    let sj ← rd sqt j
    let b ← d.get k ((j : ℤ) - 1)
    let b' ← d.get ((k : ℤ) - 1) ((j : ℤ) - 1)
    dd.put k j (-t2 * sj * b + t4 * sj * b')

/-- The assignments of the parallel loop over `k`: rows `1 … n`, entries `0 … j` of each. -/
def cells (n j : ℕ) : List (ℕ × ℕ) := (List.range' 1 n).product (List.range (j + 1))

/-- One half step `j`, wigner.cc:240-260, for one execution `s` of the parallel loop: the order in which the threads make their
assignments.  The result is `(dd, d)` after the swap. -/
noncomputable def ompHalf (q p : ℝ) (sqt : List ℝ) (j : ℕ) (s : List (ℕ × ℕ)) (d dd : A2) : Res (A2 × A2) := do
  let dd ← ompRow0 q p sqt j d dd
  let dd ← foldRes (fun dd c => ompCell q p sqt j d dd c.1 c.2) dd s
  ok (dd, d)

/-- The step for `n ≥ 2`, wigner.cc:231-261. -/
noncomputable def ompStep (q p : ℝ) (sqt : List ℝ) (n : ℕ) (s : ℕ → List (ℕ × ℕ)) (d dd : A2) : Res (A2 × A2) := do
  let d ← pad n d
  let r ← ompHalf q p sqt (2 * n - 1) (s (2 * n - 1)) d dd
  ompHalf q p sqt (2 * n) (s (2 * n)) r.1 r.2

/-- `wigner_d_risbo_openmp::recurse`, wigner.cc:219-264; `s j` is the order of the assignments in half step `j`. -/
noncomputable def Rec.omp (s : ℕ → List (ℕ × ℕ)) (r : Rec) : Res Rec := do
  let n := r.n + 1
  let e ← if n = 0 then (do let d ← r.d.put 0 0 1; ok (d, r.dd))
    else if n = 1 then (do let d ← first r.q r.p r.sqt r.d; ok (d, r.dd))
    else ompStep r.q r.p r.sqt n.toNat s r.d r.dd
  ok { r with d := e.1, dd := e.2, n := n }

/-! ## The half-integer Wigner matrices and their recursion -/

open Polynomial

/-- `√(k! (j-k)!)` -/
noncomputable def nrm (j k : ℕ) : ℝ := √(k.factorial * (j - k).factorial : ℝ)

/-- The entry `(k, i)` of the matrix of spin `j/2` for `q = cos(θ/2)`, `p = sin(θ/2)`. -/
noncomputable def W (q p : ℝ) (j k i : ℕ) : ℝ := nrm j k / nrm j i * (P q p (j - i) i).coeff (j - k)

theorem nrm_pos (j k : ℕ) : 0 < nrm j k := by unfold nrm; positivity

theorem nrm_left {j k : ℕ} (h : k < j) : nrm j k = √((j - k : ℕ) : ℝ) * nrm (j - 1) k := by
  unfold nrm
  rw [← Real.sqrt_mul (by positivity)]
  congr 1
  obtain ⟨a, rfl⟩ : ∃ a, j = k + a + 1 := ⟨j - k - 1, by omega⟩
  rw [show k + a + 1 - k = a + 1 by omega, show k + a + 1 - 1 - k = a by omega, Nat.factorial_succ]
  push_cast; ring

theorem nrm_right {j k : ℕ} (h : 0 < k) (hk : k ≤ j) : nrm j k = √(k : ℝ) * nrm (j - 1) (k - 1) := by
  unfold nrm
  rw [← Real.sqrt_mul (by positivity)]
  congr 1
  obtain ⟨a, rfl⟩ : ∃ a, k = a + 1 := ⟨k - 1, by omega⟩
  rw [show j - 1 - (a + 1 - 1) = j - (a + 1) by omega, show a + 1 - 1 = a by omega, Nat.factorial_succ]
  push_cast; ring

/-- The identity behind the recursion: coupling one more spin 1/2. -/
theorem W_rec (q p : ℝ) {j k i : ℕ} (hk : k < j) (hi : i ≤ j) :
    (j : ℝ) * W q p j k i = √((j - k : ℕ) : ℝ) * √((j - i : ℕ) : ℝ) * q * W q p (j - 1) k i
      - √((j - k : ℕ) : ℝ) * √(i : ℝ) * p * W q p (j - 1) k (i - 1)
      + √(k : ℝ) * √((j - i : ℕ) : ℝ) * p * W q p (j - 1) (k - 1) i
      + √(k : ℝ) * √(i : ℝ) * q * W q p (j - 1) (k - 1) (i - 1) := by
  obtain ⟨b, hb⟩ : ∃ b, j - k = b + 1 := ⟨j - k - 1, by omega⟩
  -- splitting off one linear factor
  have h1 : ∀ u v : ℕ, (P q p (u + 1) v).coeff (b + 1) = q * (P q p u v).coeff b + p * (P q p u v).coeff (b + 1) := by
    intro u v
    have e : P q p (u + 1) v = C q * (X * P q p u v) + C p * P q p u v := by unfold P; ring
    rw [e, coeff_add, coeff_C_mul, coeff_C_mul, coeff_X_mul]
  have h2 : ∀ u v : ℕ, (P q p u (v + 1)).coeff (b + 1) = q * (P q p u v).coeff (b + 1) - p * (P q p u v).coeff b := by
    intro u v
    have e : P q p u (v + 1) = C q * P q p u v - C p * (X * P q p u v) := by unfold P; ring
    rw [e, coeff_sub, coeff_C_mul, coeff_C_mul, coeff_X_mul]
  -- the coefficients in terms of the smaller matrix
  have c1 : ∀ u v i', i' ≤ j - 1 → u = j - 1 - i' → v = i' →
      nrm j k * (P q p u v).coeff b = √((j - k : ℕ) : ℝ) * nrm (j - 1) i' * W q p (j - 1) k i' := by
    intro u v i' hi' hu hv
    unfold W
    rw [nrm_left hk, ← hu, show j - 1 - k = b by omega, hv]
    have := (nrm_pos (j - 1) i').ne'
    field_simp
  have c2 : ∀ u v i', i' ≤ j - 1 → u = j - 1 - i' → v = i' →
      nrm j k * (P q p u v).coeff (b + 1) = √(k : ℝ) * nrm (j - 1) i' * W q p (j - 1) (k - 1) i' := by
    intro u v i' hi' hu hv
    by_cases h0 : k = 0
    · rw [coeff_P_gt _ _ _ _ _ (by omega), h0]; simp
    · unfold W
      rw [nrm_right (by omega) (le_of_lt hk), ← hu, show j - 1 - (k - 1) = b + 1 by omega, hv]
      have := (nrm_pos (j - 1) i').ne'
      field_simp
  have hN := (nrm_pos j i).ne'
  have e0 : (j : ℝ) * W q p j k i * nrm j i = nrm j k * (((j - i : ℕ) : ℝ) * (P q p (j - i) i).coeff (b + 1)
      + (i : ℝ) * (P q p (j - i) i).coeff (b + 1)) := by
    unfold W
    rw [hb]
    have : (j : ℝ) = ((j - i : ℕ) : ℝ) + i := by rw [← Nat.cast_add]; congr 1; omega
    rw [this]
    field_simp
  have e1 : nrm j k * (((j - i : ℕ) : ℝ) * (P q p (j - i) i).coeff (b + 1)) =
      (√((j - k : ℕ) : ℝ) * √((j - i : ℕ) : ℝ) * q * W q p (j - 1) k i
        + √(k : ℝ) * √((j - i : ℕ) : ℝ) * p * W q p (j - 1) (k - 1) i) * nrm j i := by
    by_cases hij : i = j
    · subst hij; simp
    · have hij' : i < j := by omega
      have x1 := c1 (j - 1 - i) i i (by omega) rfl rfl
      have x2 := c2 (j - 1 - i) i i (by omega) rfl rfl
      rw [show j - i = j - 1 - i + 1 by omega, h1]
      have s2 : √((j - 1 - i + 1 : ℕ) : ℝ) * √((j - 1 - i + 1 : ℕ) : ℝ) = ((j - 1 - i + 1 : ℕ) : ℝ) :=
        Real.mul_self_sqrt (by positivity)
      rw [nrm_left hij', show j - i = j - 1 - i + 1 by omega]
      linear_combination ((j - 1 - i + 1 : ℕ) : ℝ) * (q * x1 + p * x2) +
        (- q * √((j - k : ℕ) : ℝ) * nrm (j - 1) i * W q p (j - 1) k i
          - p * √(k : ℝ) * nrm (j - 1) i * W q p (j - 1) (k - 1) i) * s2
  have e2 : nrm j k * ((i : ℝ) * (P q p (j - i) i).coeff (b + 1)) =
      (√(k : ℝ) * √(i : ℝ) * q * W q p (j - 1) (k - 1) (i - 1)
        - √((j - k : ℕ) : ℝ) * √(i : ℝ) * p * W q p (j - 1) k (i - 1)) * nrm j i := by
    by_cases hi0 : i = 0
    · subst hi0; simp
    · have x1 := c1 (j - i) (i - 1) (i - 1) (by omega) (by omega) rfl
      have x2 := c2 (j - i) (i - 1) (i - 1) (by omega) (by omega) rfl
      have y := h2 (j - i) (i - 1)
      rw [show i - 1 + 1 = i by omega] at y
      rw [y]
      have s2 : √(i : ℝ) * √(i : ℝ) = (i : ℝ) := Real.mul_self_sqrt (by positivity)
      rw [nrm_right (by omega) hi]
      linear_combination (i : ℝ) * (q * x2 - p * x1) +
        (- q * √(k : ℝ) * nrm (j - 1) (i - 1) * W q p (j - 1) (k - 1) (i - 1)
          + p * √((j - k : ℕ) : ℝ) * nrm (j - 1) (i - 1) * W q p (j - 1) k (i - 1)) * s2
  apply mul_right_cancel₀ hN
  rw [e0, mul_add, e1, e2]
  ring

/-- Reflection of both indices. -/
theorem W_reflect (q p : ℝ) {j k i : ℕ} (hk : k ≤ j) (hi : i ≤ j) :
    W q p j (j - k) (j - i) = (-1) ^ (k + i) * W q p j k i := by
  have hn : ∀ a, a ≤ j → nrm j (j - a) = nrm j a := by
    intro a ha; unfold nrm; rw [show j - (j - a) = a by omega, mul_comm]
  have h := P_reflect q p (j - i) i (k := j - k) (by omega)
  unfold W
  rw [hn k hk, hn i hi, show j - (j - i) = i by omega]
  rw [show j - i + i - (j - k) = j - (j - k) by omega] at h
  rw [h]
  have : (-1 : ℝ) ^ (j - i + (j - k)) = (-1) ^ (k + i) := by
    have e : (-1 : ℝ) ^ (j - i + (j - k)) * (-1) ^ (k + i) = 1 := by
      rw [← pow_add, show j - i + (j - k) + (k + i) = 2 * j by omega, pow_mul]; simp
    rcases neg_one_pow_eq_or ℝ (k + i) with h' | h' <;> rw [h'] at e ⊢ <;> linarith
  rw [this]; ring

/-- For integer spin these are the Wigner d-functions. -/
theorem W_wigner (θ : ℝ) {l k i : ℕ} (hk : k ≤ 2 * l) (hi : i ≤ 2 * l) :
    W (Real.cos (θ / 2)) (Real.sin (θ / 2)) (2 * l) k i = wignerD l ((l : ℤ) - k) ((l : ℤ) - i) θ := by
  rw [wignerD_eq_coeff l (abs_le.mpr ⟨by omega, by omega⟩) (abs_le.mpr ⟨by omega, by omega⟩)]
  unfold W nrm
  rw [show ((l : ℤ) + ((l : ℤ) - k)).toNat = 2 * l - k by omega, show ((l : ℤ) - ((l : ℤ) - k)).toNat = k by omega,
    show ((l : ℤ) + ((l : ℤ) - i)).toNat = 2 * l - i by omega, show ((l : ℤ) - ((l : ℤ) - i)).toNat = i by omega]
  rw [mul_comm (k.factorial : ℝ), mul_comm (i.factorial : ℝ)]

end Verif.Risbo
