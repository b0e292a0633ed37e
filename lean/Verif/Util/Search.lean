import Verif.Base.Res
import Mathlib.Data.Real.Basic
import Mathlib.Order.Basic
import Mathlib.Tactic.Linarith
import Mathlib.Tactic.FieldSimp
import Mathlib.Tactic.Ring
import Mathlib.Tactic.IntervalCases

/-!
# C80: searching and interpolating in arrays

Model of the searching members of `arr_ref` (levels/cxxsupport/ls_arr.h:96-157) and of `interpol_helper`
(levels/cxxsupport/ls_math_utils.h:155-173).
-/

namespace Verif.Search
open Verif Res

/-! ## The code -/

/-- `std::lower_bound(begin, end, val, comp)` as the C++ standard defines it for a sequence that is partitioned by
`comp(·, val)`: the position of the first element that is not before `val`
(called in levels/cxxsupport/ls_math_utils.h:162). -/
def lowerBound {α : Type} (comp : α → α → Bool) (xs : List α) (val : α) : ℕ := (xs.takeWhile (comp · val)).length

/-- `interpol_helper(begin, end, val, comp, idx, frac)`, levels/cxxsupport/ls_math_utils.h:155-166; `sub`, `dv` are the
subtraction and the division of the element type, exact or rounded. -/
noncomputable def interpol (sub dv : ℝ → ℝ → ℝ) (comp : ℝ → ℝ → Bool) (xs : List ℝ) (val : ℝ) : Res (ℕ × ℝ) :=
  if 1 < xs.length then do
    let i0 := lowerBound comp xs val
    let i1 := if 0 < i0 then i0 - 1 else i0
    let idx := min (xs.length - 2) i1
    let a ← rd xs idx
    let b ← rd xs ((idx : ℤ) + 1)
    ok (idx, dv (sub val a) (sub b a))
  else throw "sequence too small for interpolation"

/-- One pass of the loop of `minmax`, levels/cxxsupport/ls_arr.h:127-128. -/
def minmaxStep {α : Type} (lt : α → α → Bool) (p : α × α) (x : α) : α × α :=
  if lt x p.1 then (x, p.2) else if lt p.2 x then (p.1, x) else p

/-- `minmax(minv, maxv)`, levels/cxxsupport/ls_arr.h:121-130; `lt` is the comparison `<` of the element type. -/
def minmax {α : Type} (lt : α → α → Bool) : List α → Res (α × α)
  | [] => throw "trying to find min and max of a zero-sized array"
  | x :: xs => ok (xs.foldl (minmaxStep lt) (x, x))

/-- `contains(val)`, levels/cxxsupport/ls_arr.h:133-138; `eq` is the comparison `==` of the element type. -/
def contains {α : Type} (eq : α → α → Bool) : List α → α → Bool
  | [], _ => false
  | x :: xs, val => if eq x val then true else contains eq xs val

/-- The loop of `find`, levels/cxxsupport/ls_arr.h:144-145, from position `m` on. -/
def findFrom {α : Type} (eq : α → α → Bool) (val : α) : List α → ℕ → Res ℕ
  | [], _ => throw "entry not found in array"
  | x :: xs, m => if eq x val then ok m else findFrom eq val xs (m + 1)

/-- `find(val)`, levels/cxxsupport/ls_arr.h:142-147. -/
def find {α : Type} (eq : α → α → Bool) (xs : List α) (val : α) : Res ℕ := findFrom eq val xs 0

/-- `contentsEqual(other)`, levels/cxxsupport/ls_arr.h:151-157. -/
def contentsEqual {α : Type} (eq : α → α → Bool) (xs ys : List α) : Bool :=
  if xs.length ≠ ys.length then false else (List.zip xs ys).all (fun p => eq p.1 p.2)

/-! ## Interpolation -/

/-- The two directions in which an array can be sorted: `std::less` and `std::greater`. -/
def before (up : Bool) (x y : ℝ) : Prop := if up then x < y else y < x

/-- The comparison object. -/
noncomputable def cmp (up : Bool) (x y : ℝ) : Bool := open Classical in decide (before up x y)

theorem takeWhile_len {α : Type} (p : α → Bool) : ∀ xs : List α,
    (∀ i (h : i < xs.length), i < (xs.takeWhile p).length → p xs[i] = true) ∧
    (∀ h : (xs.takeWhile p).length < xs.length, p xs[(xs.takeWhile p).length] = false) ∧
    (xs.takeWhile p).length ≤ xs.length
  | [] => by simp
  | x :: xs => by
    obtain ⟨h1, h2, h3⟩ := takeWhile_len p xs
    by_cases hx : p x = true
    · simp only [List.takeWhile_cons, hx, if_true, List.length_cons]
      refine ⟨?_, ?_, by omega⟩
      · intro i h hi
        cases i with
        | zero => simpa using hx
        | succ i => simpa using h1 i (by simpa using h) (by omega)
      · intro h
        have := h2 (by omega)
        simpa using this
    · simp only [List.takeWhile_cons, hx]
      refine ⟨by intro i h hi; simp at hi, ?_, by simp⟩
      intro _
      simpa using hx

theorem cmp_true {up : Bool} {x y : ℝ} : cmp up x y = true ↔ before up x y := by
  classical
  unfold cmp
  simp

theorem cmp_false {up : Bool} {x y : ℝ} : cmp up x y = false ↔ ¬ before up x y := by
  rw [← cmp_true]; simp

/-- Strictly sorted in the given direction. -/
def Sorted (up : Bool) (xs : List ℝ) : Prop := ∀ i j (_ : i < j) (hj : j < xs.length), before up (xs[i]'(by omega)) xs[j]

theorem before_trans {up : Bool} {x y z : ℝ} (h1 : before up x y) (h2 : before up y z) : before up x z := by
  unfold before at *
  cases up <;> simp only [if_true, if_false, Bool.false_eq_true] at * <;> linarith

/-- What the position found means: the value is not before the left neighbour unless that is the first element, and not
after the right neighbour unless that is the last one. -/
theorem interpol_pos (sub dv : ℝ → ℝ → ℝ) (up : Bool) (xs : List ℝ) (val : ℝ) (hlen : 1 < xs.length) (hs : Sorted up xs) :
    ∃ idx, ∃ h : idx + 1 < xs.length,
      interpol sub dv (cmp up) xs val = ok (idx, dv (sub val xs[idx]) (sub xs[idx + 1] xs[idx])) ∧
      (0 < idx → before up xs[idx] val) ∧
      (idx + 2 < xs.length → ¬ before up xs[idx + 1] val) := by
  obtain ⟨t1, t2, t3⟩ := takeWhile_len (cmp up · val) xs
  have hlb : lowerBound (cmp up) xs val = (xs.takeWhile (cmp up · val)).length := rfl
  have hlt : ∀ i (h : i < xs.length), i < (xs.takeWhile (cmp up · val)).length → before up xs[i] val := by
    intro i h hi
    exact cmp_true.mp (t1 i h hi)
  have hge : ∀ h : (xs.takeWhile (cmp up · val)).length < xs.length,
      ¬ before up (xs[(xs.takeWhile (cmp up · val)).length]) val := by
    intro h
    exact cmp_false.mp (t2 h)
  rw [← hlb] at hlt t3
  have hge' : ∀ n (_ : n = lowerBound (cmp up) xs val) (h : n < xs.length), ¬ before up xs[n] val := by
    rintro n rfl h; exact hge h
  obtain ⟨k, hk⟩ : ∃ k, k = min (xs.length - 2) (if 0 < lowerBound (cmp up) xs val then lowerBound (cmp up) xs val - 1
    else lowerBound (cmp up) xs val) := ⟨_, rfl⟩
  have hk1 : k + 1 < xs.length := by omega
  refine ⟨k, hk1, ?_, ?_, ?_⟩
  · unfold interpol
    rw [if_pos hlen]
    dsimp only
    rw [← hk]
    rw [rd_nat (show k < xs.length by omega), ok_bind]
    have e : ((k : ℤ) + 1) = ((k + 1 : ℕ) : ℤ) := by push_cast; rfl
    rw [e, rd_nat hk1, ok_bind]
  · intro h0
    refine hlt k (by omega) ?_
    by_cases hp : 0 < lowerBound (cmp up) xs val
    · rw [if_pos hp] at hk; omega
    · rw [if_neg hp] at hk; omega
  · intro h2 hb
    by_cases hp : 0 < lowerBound (cmp up) xs val
    · rw [if_pos hp] at hk
      exact hge' (k + 1) (by omega) hk1 hb
    · exact hge' 0 (by omega) (by omega) (before_trans (hs 0 (k + 1) (by omega) hk1) hb)

theorem frac_up {a b v : ℝ} (h : a < b) :
    (v = a + (v - a) / (b - a) * (b - a)) ∧ ((v - a) / (b - a) < 0 ↔ v < a) ∧ (1 < (v - a) / (b - a) ↔ b < v) := by
  have hp : 0 < b - a := by linarith
  refine ⟨by field_simp; ring, ?_, ?_⟩
  · rw [div_lt_iff₀ hp]; constructor <;> intro _ <;> linarith
  · rw [lt_div_iff₀ hp]; constructor <;> intro _ <;> linarith

theorem frac_before {up : Bool} {a b v : ℝ} (h : before up a b) :
    (v = a + (v - a) / (b - a) * (b - a)) ∧ ((v - a) / (b - a) < 0 ↔ before up v a) ∧
      (1 < (v - a) / (b - a) ↔ before up b v) := by
  cases up with
  | true => simpa [before] using frac_up (v := v) (by simpa [before] using h)
  | false =>
    have hb : b < a := by simpa [before] using h
    have e : (v - a) / (b - a) = (-v - -a) / (-b - -a) := by
      rw [show -v - -a = -(v - a) by ring, show -b - -a = -(b - a) by ring, neg_div_neg_eq]
    obtain ⟨_, h2, h3⟩ := frac_up (a := -a) (b := -b) (v := -v) (by linarith)
    have hne : b - a ≠ 0 := sub_ne_zero.mpr hb.ne
    refine ⟨by field_simp; ring, ?_, ?_⟩
    · rw [e, h2]; simp [before]
    · rw [e, h3]; simp [before]

/-- **Linear interpolation.**  For every strictly sorted array of at least two elements (ascending with `less`, descending
with `greater`) and every value, the position returned has a right neighbour in the array, the value is the linear
combination of the two with the returned fraction, the fraction is negative exactly for a value before the first element,
larger than one exactly for a value after the last one, and the two elements enclose every other value. -/
theorem C80_interpol (up : Bool) (xs : List ℝ) (val : ℝ) (hlen : 1 < xs.length) (hs : Sorted up xs) :
    ∃ idx frac, ∃ h : idx + 1 < xs.length,
      interpol (· - ·) (· / ·) (cmp up) xs val = ok (idx, frac) ∧
      val = xs[idx] + frac * (xs[idx + 1] - xs[idx]) ∧
      (frac < 0 ↔ before up val xs[0]) ∧
      (1 < frac ↔ before up (xs[xs.length - 1]) val) := by
  obtain ⟨k, hk, he, hl, hr⟩ := interpol_pos (· - ·) (· / ·) up xs val hlen hs
  obtain ⟨f1, f2, f3⟩ := frac_before (v := val) (hs k (k + 1) (by omega) hk)
  refine ⟨k, _, hk, he, f1, ?_, ?_⟩
  · rw [f2]
    by_cases h0 : k = 0
    · subst h0; exact Iff.rfl
    · constructor
      · intro h
        have h2 := before_trans (hl (by omega)) h
        unfold before at h2; split at h2 <;> linarith
      · intro h
        exact before_trans h (hs 0 k (by omega) (by omega))
  · rw [f3]
    by_cases h0 : k + 2 = xs.length
    · have : xs.length - 1 = k + 1 := by omega
      simp only [this]
    · constructor
      · intro h; exact absurd h (hr (by omega))
      · intro h
        exact absurd (before_trans (hs (k + 1) (xs.length - 1) (by omega) (by omega)) h) (hr (by omega))

/-- **Linear interpolation with rounding.**  If subtraction and division round to nearest (any monotone rounding
that keeps 0 and 1 and commutes with the change of sign), and differences of distinct elements of the array do not vanish, then the fraction is
between 0 and 1 for every value between the first and the last element, not positive before and not below 1 after
them. -/
theorem C80_interpol_rounded (rnd : ℝ → ℝ) (hm : Monotone rnd) (h0 : rnd 0 = 0) (h1 : rnd 1 = 1)
    (hneg : ∀ x, rnd (-x) = -rnd x) (up : Bool) (xs : List ℝ) (val : ℝ) (hlen : 1 < xs.length) (hs : Sorted up xs)
    (hd : ∀ i j (hi : i < xs.length) (hj : j < xs.length), i ≠ j → rnd (xs[i] - xs[j]) ≠ 0) :
    ∃ idx frac, ∃ _ : idx + 1 < xs.length,
      interpol (fun x y => rnd (x - y)) (fun x y => rnd (x / y)) (cmp up) xs val = ok (idx, frac) ∧
      (before up val xs[0] → frac ≤ 0) ∧
      (before up (xs[xs.length - 1]) val → 1 ≤ frac) ∧
      (¬ before up val xs[0] → ¬ before up (xs[xs.length - 1]) val → 0 ≤ frac ∧ frac ≤ 1) := by
  obtain ⟨k, hk, he, hl, hr⟩ := interpol_pos (fun x y => rnd (x - y)) (fun x y => rnd (x / y)) up xs val hlen hs
  refine ⟨k, _, hk, he, ?_⟩
  have hb := hs k (k + 1) (by omega) hk
  -- distances in the direction of the array
  obtain ⟨s, hs1⟩ : ∃ s : ℝ → ℝ, s = (if up then fun x => x else fun x => -x) := ⟨_, rfl⟩
  have hbef : ∀ x y, before up x y ↔ 0 < s (y - x) := by
    intro x y
    rw [hs1]; unfold before
    cases up <;> simp
  have hquot : ∀ v, rnd (v - xs[k]) / rnd (xs[k + 1] - xs[k])
      = rnd (s (v - xs[k])) / rnd (s (xs[k + 1] - xs[k])) := by
    intro v
    rw [hs1]
    cases up with
    | true => rfl
    | false => simp only [Bool.false_eq_true, if_false]; rw [hneg, hneg, neg_div_neg_eq]
  have hsne : rnd (s (xs[k + 1] - xs[k])) ≠ 0 := by
    have := hd (k + 1) k hk (by omega) (by omega)
    rw [hs1]
    cases up with
    | true => exact this
    | false => simp only [Bool.false_eq_true, if_false]; rw [hneg]; exact neg_ne_zero.mpr this
  have hD : 0 < rnd (s (xs[k + 1] - xs[k])) := by
    have := hm ((hbef _ _).mp hb).le
    rw [h0] at this
    exact lt_of_le_of_ne this (Ne.symm hsne)
  have hle : ∀ v, s (v - xs[k]) ≤ 0 → rnd (rnd (v - xs[k]) / rnd (xs[k + 1] - xs[k])) ≤ 0 := by
    intro v hv
    rw [hquot, ← h0]
    apply hm
    exact div_nonpos_of_nonpos_of_nonneg (by have := hm hv; rwa [h0] at this) hD.le
  have hge : ∀ v, 0 ≤ s (v - xs[k]) → 0 ≤ rnd (rnd (v - xs[k]) / rnd (xs[k + 1] - xs[k])) := by
    intro v hv
    rw [hquot, ← h0]
    apply hm
    exact div_nonneg (by have := hm hv; rwa [h0] at this) hD.le
  have hge1 : ∀ v, s (xs[k + 1] - xs[k]) ≤ s (v - xs[k]) → 1 ≤ rnd (rnd (v - xs[k]) / rnd (xs[k + 1] - xs[k])) := by
    intro v hv
    rw [hquot, ← h1]
    apply hm
    rw [le_div_iff₀ hD, one_mul]
    exact hm hv
  have hle1 : ∀ v, s (v - xs[k]) ≤ s (xs[k + 1] - xs[k]) → rnd (rnd (v - xs[k]) / rnd (xs[k + 1] - xs[k])) ≤ 1 := by
    intro v hv
    rw [hquot, ← h1]
    apply hm
    rw [div_le_iff₀ hD, one_mul]
    exact hm hv
  have hsub : ∀ x y z, s (x - y) = s (x - z) + s (z - y) := by
    intro x y z; rw [hs1]; cases up <;> simp
  refine ⟨?_, ?_, ?_⟩
  · intro h
    apply hle
    have hv : before up val xs[k] := by
      by_cases hk0 : k = 0
      · subst hk0; exact h
      · exact before_trans h (hs 0 k (by omega) (by omega))
    have := (hbef _ _).mp hv
    have e := hsub val val xs[k]
    have e0 : s (val - val) = 0 := by rw [hs1]; cases up <;> simp
    linarith
  · intro h
    apply hge1
    have hv : before up xs[k + 1] val := by
      by_cases hk0 : k + 2 = xs.length
      · have : xs.length - 1 = k + 1 := by omega
        simpa only [this] using h
      · exact before_trans (hs (k + 1) (xs.length - 1) (by omega) (by omega)) h
    have := (hbef _ _).mp hv
    have e := hsub val xs[k] xs[k + 1]
    linarith
  · intro hn0 hn1
    have hv0 : ¬ before up val xs[k] := by
      by_cases hk0 : k = 0
      · subst hk0; exact hn0
      · intro h
        have h2 := before_trans (hl (by omega)) h
        unfold before at h2; split at h2 <;> linarith
    have hv1 : ¬ before up xs[k + 1] val := by
      by_cases hk0 : k + 2 = xs.length
      · have : xs.length - 1 = k + 1 := by omega
        simpa only [this] using hn1
      · exact hr (by omega)
    rw [hbef] at hv0 hv1
    constructor
    · apply hge
      have e := hsub val val xs[k]
      have e0 : s (val - val) = 0 := by rw [hs1]; cases up <;> simp
      linarith
    · apply hle1
      have e := hsub val xs[k] xs[k + 1]
      linarith

/-- Shorter arrays are refused. -/
theorem C80_interpol_short (sub dv : ℝ → ℝ → ℝ) (comp : ℝ → ℝ → Bool) (xs : List ℝ) (val : ℝ) (h : xs.length ≤ 1) :
    interpol sub dv comp xs val = throw "sequence too small for interpolation" := by
  unfold interpol; rw [if_neg (by omega)]

example : Sorted true [1, 2, 4] ∧ Sorted false [4, 2, 1] := by
  constructor <;> intro i j hij hj <;> simp only [List.length_cons, List.length_nil] at hj <;>
    (have hi : i < 3 := by omega) <;> interval_cases j <;> interval_cases i <;> simp [before] at * <;> norm_num

/-! ## Extrema -/

theorem minmax_fold {α : Type} [LinearOrder α] : ∀ (xs : List α) (p : α × α), p.1 ≤ p.2 →
    let q := xs.foldl (minmaxStep (fun a b => decide (a < b))) p
    q.1 ≤ q.2 ∧ q.1 ≤ p.1 ∧ p.2 ≤ q.2 ∧ (q.1 = p.1 ∨ q.1 ∈ xs) ∧ (q.2 = p.2 ∨ q.2 ∈ xs) ∧ ∀ x ∈ xs, q.1 ≤ x ∧ x ≤ q.2
  | [], p, h => ⟨h, le_refl _, le_refl _, Or.inl rfl, Or.inl rfl, by simp⟩
  | x :: xs, p, h => by
    obtain ⟨r, hr⟩ : ∃ r, r = minmaxStep (fun a b => decide (a < b)) p x := ⟨_, rfl⟩
    have hr' : r.1 ≤ r.2 ∧ r.1 ≤ p.1 ∧ p.2 ≤ r.2 ∧ (r.1 = p.1 ∨ r.1 = x) ∧ (r.2 = p.2 ∨ r.2 = x) ∧ r.1 ≤ x ∧ x ≤ r.2 := by
      rw [hr]; unfold minmaxStep
      by_cases h1 : x < p.1
      · rw [if_pos (by simpa using h1)]
        exact ⟨(h1.le.trans h), h1.le, le_refl _, Or.inr rfl, Or.inl rfl, le_refl _, h1.le.trans h⟩
      · rw [if_neg (by simpa using h1)]
        have h1' := not_lt.mp h1
        by_cases h2 : p.2 < x
        · rw [if_pos (by simpa using h2)]
          exact ⟨h1', le_refl _, h2.le, Or.inl rfl, Or.inr rfl, h1', le_refl _⟩
        · rw [if_neg (by simpa using h2)]
          exact ⟨h, le_refl _, le_refl _, Or.inl rfl, Or.inl rfl, h1', not_lt.mp h2⟩
    obtain ⟨r1, r2, r3, r4, r5, r6, r7⟩ := hr'
    obtain ⟨q1, q2, q3, q4, q5, q6⟩ := minmax_fold xs r r1
    simp only [List.foldl_cons]
    rw [← hr]
    refine ⟨q1, q2.trans r2, r3.trans q3, ?_, ?_, ?_⟩
    · rcases q4 with q4 | q4
      · rw [q4]; rcases r4 with r4 | r4
        · exact Or.inl r4
        · exact Or.inr (by rw [r4]; simp)
      · exact Or.inr (List.mem_cons_of_mem _ q4)
    · rcases q5 with q5 | q5
      · rw [q5]; rcases r5 with r5 | r5
        · exact Or.inl r5
        · exact Or.inr (by rw [r5]; simp)
      · exact Or.inr (List.mem_cons_of_mem _ q5)
    · intro y hy
      rcases List.mem_cons.mp hy with rfl | hy
      · exact ⟨q2.trans r6, r7.trans q3⟩
      · exact q6 y hy

/-- **Extrema.**  `minmax` of an array with elements returns the smallest and the largest element; without elements it
throws. -/
theorem C80_minmax {α : Type} [LinearOrder α] (xs : List α) :
    (xs = [] → minmax (fun a b => decide (a < b)) xs = throw "trying to find min and max of a zero-sized array") ∧
    (xs ≠ [] → ∃ lo hi, minmax (fun a b => decide (a < b)) xs = ok (lo, hi) ∧ lo ∈ xs ∧ hi ∈ xs ∧ ∀ x ∈ xs, lo ≤ x ∧ x ≤ hi) := by
  constructor
  · rintro rfl; rfl
  · intro h
    cases xs with
    | nil => exact absurd rfl h
    | cons x xs =>
      obtain ⟨_, q2, q3, q4, q5, q6⟩ := minmax_fold xs (x, x) (le_refl _)
      refine ⟨_, _, rfl, ?_, ?_, ?_⟩
      · rcases q4 with q4 | q4
        · rw [q4]; simp
        · exact List.mem_cons_of_mem _ q4
      · rcases q5 with q5 | q5
        · rw [q5]; simp
        · exact List.mem_cons_of_mem _ q5
      · intro y hy
        rcases List.mem_cons.mp hy with rfl | hy
        · exact ⟨q2, q3⟩
        · exact q6 y hy

/-- Comparison of floating-point numbers: `none` is not a number, every comparison with it is false. -/
noncomputable def ltNan : Option ℝ → Option ℝ → Bool
  | some x, some y => open Classical in decide (x < y)
  | _, _ => false

/-- **Not a number.**  If the first element is not a number, `minmax` returns not a number twice, whatever the other
elements are; a later element that is not a number is skipped. -/
theorem C80_minmax_nan (xs : List (Option ℝ)) :
    minmax ltNan (none :: xs) = ok (none, none) ∧
    ∀ x : ℝ, ∀ ys, minmax ltNan (some x :: (xs ++ none :: ys)) = minmax ltNan (some x :: (xs ++ ys)) := by
  constructor
  · show ok (xs.foldl (minmaxStep ltNan) (none, none)) = _
    congr 1
    induction xs with
    | nil => rfl
    | cons y ys ih =>
      rw [List.foldl_cons]
      have : minmaxStep ltNan (none, none) y = (none, none) := by
        unfold minmaxStep ltNan; cases y <;> simp
      rw [this]; exact ih
  · intro x ys
    show ok ((xs ++ none :: ys).foldl (minmaxStep ltNan) (some x, some x))
      = ok ((xs ++ ys).foldl (minmaxStep ltNan) (some x, some x))
    congr 1
    rw [List.foldl_append, List.foldl_append, List.foldl_cons]
    congr 1
    unfold minmaxStep ltNan
    generalize List.foldl _ _ xs = p
    obtain ⟨a, b⟩ := p
    cases a <;> cases b <;> simp

/-! ## Searching -/

/-- **Containment.**  `contains` tells whether the value is an element. -/
theorem C80_contains {α : Type} [DecidableEq α] (xs : List α) (val : α) :
    contains (fun a b => decide (a = b)) xs val = true ↔ val ∈ xs := by
  induction xs with
  | nil => simp [contains]
  | cons x xs ih =>
    unfold contains
    by_cases h : x = val
    · simp [h]
    · rw [if_neg (by simpa using h), ih, List.mem_cons]
      constructor
      · exact Or.inr
      · rintro (h' | h')
        · exact absurd h'.symm h
        · exact h'

theorem findFrom_eq {α : Type} [DecidableEq α] (val : α) : ∀ (xs : List α) (m : ℕ),
    findFrom (fun a b => decide (a = b)) val xs m
      = if val ∈ xs then ok (m + xs.idxOf val) else throw "entry not found in array"
  | [], m => rfl
  | x :: xs, m => by
    unfold findFrom
    by_cases h : x = val
    · subst h; simp
    · rw [if_neg (by simpa using h), findFrom_eq val xs (m + 1)]
      by_cases h' : val ∈ xs
      · rw [if_pos h', if_pos (List.mem_cons_of_mem _ h'), List.idxOf_cons_ne _ h]
        congr 1; omega
      · rw [if_neg h', if_neg (by rw [List.mem_cons]; rintro (a | a); exacts [h a.symm, h' a])]

/-- **Position.**  `find` returns the position of the first occurrence, and throws if there is none. -/
theorem C80_find {α : Type} [DecidableEq α] (xs : List α) (val : α) :
    (val ∉ xs → find (fun a b => decide (a = b)) xs val = throw "entry not found in array") ∧
    (val ∈ xs → ∃ i, find (fun a b => decide (a = b)) xs val = ok i ∧ xs[i]? = some val ∧
      ∀ j < i, xs[j]? ≠ some val) := by
  unfold find
  rw [findFrom_eq]
  refine ⟨fun h => by rw [if_neg h], fun h => ⟨_, by rw [if_pos h, Nat.zero_add], ?_, ?_⟩⟩
  · have hl := List.idxOf_lt_length_iff.mpr h
    rw [List.getElem?_eq_getElem hl, List.getElem_idxOf]
  · intro j hj hc
    have hl := List.idxOf_lt_length_iff.mpr h
    have hj' : j < xs.length := by omega
    rw [List.getElem?_eq_getElem hj'] at hc
    injection hc with hc
    have := List.not_of_lt_findIdx (p := (· == val)) (by simpa [List.idxOf] using hj)
    simp [hc] at this

/-- **Equality of contents.** -/
theorem C80_contentsEqual {α : Type} [DecidableEq α] (xs ys : List α) :
    contentsEqual (fun a b => decide (a = b)) xs ys = true ↔ xs = ys := by
  unfold contentsEqual
  by_cases h : xs.length = ys.length
  · rw [if_neg (by simpa using h)]
    induction xs generalizing ys with
    | nil => cases ys with
      | nil => simp
      | cons y ys => simp at h
    | cons x xs ih => cases ys with
      | nil => simp at h
      | cons y ys =>
        have := ih ys (by simpa using h)
        simp only [List.zip_cons_cons, List.all_cons, Bool.and_eq_true, decide_eq_true_eq, List.cons.injEq, this]
  · rw [if_pos h]
    constructor
    · intro h'; simp at h'
    · rintro rfl; exact absurd rfl h

end Verif.Search
