import Verif.Tod.Real
import Mathlib.LinearAlgebra.Lagrange

/-!
# Interpolation weights

`weight_ncm` never fails, and in exact arithmetic gives the Lagrange weights of the nodes
`0 … order` (C12).
-/

namespace Verif.Tod
open Verif Res

section
variable {F : Type} [Arith F]

/-- `mul1` in the first loop before iteration `m = i + 1`. -/
def upMul (x : F) : Nat → F
  | 0 => x
  | i + 1 => Arith.mul (upMul x i) (Arith.sub x (Arith.ofInt ((i : Int) + 1)))

/-- `mul2` in the second loop before iteration `m = i + 1`. -/
def downMul (N : Nat) (x : F) : Nat → F
  | 0 => Arith.add (Arith.sub x (Arith.ofInt N)) (Arith.ofInt 1)
  | i + 1 => Arith.mul (downMul N x i)
      (Arith.add (Arith.add (Arith.sub x (Arith.ofInt N)) (Arith.ofInt 1)) (Arith.ofInt ((i : Int) + 1)))

/-- The weight of node `m`. -/
def wgt (N : Nat) (x : F) (m : Nat) : F :=
  let b := if 1 ≤ m then Arith.mul (baseWgt1 N m) (upMul x (m - 1)) else baseWgt1 N m
  if m + 2 ≤ N then Arith.mul b (downMul N x (N - 2 - m)) else b

theorem map_range_set {β : Type} (N j : Nat) (f : Nat → β) (v : β) :
    ((List.range N).map f).set j v = (List.range N).map (fun m => if m = j then v else f m) := by
  apply List.ext_getElem (by simp)
  intro i h1 h2
  simp only [List.getElem_set, List.getElem_map, List.getElem_range]
  by_cases h : j = i
  · simp [h]
  · rw [if_neg h, if_neg (fun e => h e.symm)]

theorem weightNcm_eq (N : Nat) (x : F) : weightNcm N x = ok ((List.range N).map (wgt N x)) := by
  unfold weightNcm
  obtain ⟨s, hs, h1⟩ := forN_inv (N - 1) (wgtUp x) (baseWgt N, x)
    (fun i s => s = ((List.range N).map (fun m => if 1 ≤ m ∧ m ≤ i then Arith.mul (baseWgt1 N m) (upMul x (m - 1))
      else baseWgt1 N m), upMul x i)) (by
        simp only [baseWgt, upMul, Prod.mk.injEq, and_true]
        apply List.map_congr_left
        intro m _
        rw [if_neg (by omega)])
    (by
      rintro i t hi rfl
      refine ⟨_, ?_, rfl⟩
      unfold wgtUp
      simp only
      rw [show ((i : Int) + 1) = ((i + 1 : Nat) : Int) by push_cast; rfl, rd_nat (by simp; omega)]
      simp only [ok_bind]
      rw [wr_nat _ (by simp; omega)]
      simp only [ok_bind]
      congr 1
      rw [Prod.mk.injEq]
      constructor
      · rw [map_range_set]
        apply List.map_congr_left
        intro m hm
        by_cases h : m = i + 1
        · subst h
          simp
        · rw [if_neg h]
          by_cases h2 : 1 ≤ m ∧ m ≤ i
          · rw [if_pos h2, if_pos (by omega)]
          · rw [if_neg h2, if_neg (by omega)]
      · rw [upMul]; push_cast; rfl)
  rw [hs]
  simp only [ok_bind]
  subst h1
  obtain ⟨t, ht, h2⟩ := forN_inv (N - 1) (wgtDown N x)
    ((List.range N).map (fun m => if 1 ≤ m ∧ m ≤ N - 1 then Arith.mul (baseWgt1 N m) (upMul x (m - 1))
      else baseWgt1 N m), Arith.add (Arith.sub x (Arith.ofInt N)) (Arith.ofInt 1))
    (fun i s => s = ((List.range N).map (fun m =>
      let b := if 1 ≤ m then Arith.mul (baseWgt1 N m) (upMul x (m - 1)) else baseWgt1 N m
      if m + 2 ≤ N ∧ N - 1 - m ≤ i then Arith.mul b (downMul N x (N - 2 - m)) else b), downMul N x i))
    (by
      simp only [downMul, Prod.mk.injEq, and_true]
      apply List.map_congr_left
      intro m hm
      rw [List.mem_range] at hm
      rw [if_neg (by omega : ¬ (m + 2 ≤ N ∧ N - 1 - m ≤ 0))]
      by_cases h : 1 ≤ m
      · rw [if_pos ⟨h, by omega⟩, if_pos h]
      · rw [if_neg (by omega), if_neg h])
    (by
      rintro i t hi rfl
      refine ⟨_, ?_, rfl⟩
      unfold wgtDown
      simp only
      rw [show ((N : Int) - 1 - ((i : Int) + 1)) = ((N - 2 - i : Nat) : Int) by omega, rd_nat (by simp; omega)]
      simp only [ok_bind]
      rw [wr_nat _ (by simp; omega)]
      simp only [ok_bind]
      congr 1
      rw [Prod.mk.injEq]
      refine ⟨?_, rfl⟩
      rw [map_range_set]
      apply List.map_congr_left
      intro m hm
      rw [List.mem_range] at hm
      by_cases h : m = N - 2 - i
      · rw [if_pos h]
        simp only [List.getElem_map, List.getElem_range]
        rw [← h]
        rw [if_neg (by omega : ¬ (m + 2 ≤ N ∧ N - 1 - m ≤ i)),
          if_pos (by omega : m + 2 ≤ N ∧ N - 1 - m ≤ i + 1)]
        rw [show N - 2 - m = i by omega]
      · rw [if_neg h]
        by_cases h2 : m + 2 ≤ N ∧ N - 1 - m ≤ i
        · rw [if_pos h2, if_pos (by omega : m + 2 ≤ N ∧ N - 1 - m ≤ i + 1)]
        · rw [if_neg h2, if_neg (by omega : ¬ (m + 2 ≤ N ∧ N - 1 - m ≤ i + 1))])
  rw [ht]
  simp only [ok_bind]
  subst h2
  congr 1
  apply List.map_congr_left
  intro m hm
  rw [List.mem_range] at hm
  unfold wgt
  simp only
  by_cases h2 : m + 2 ≤ N
  · rw [if_pos h2, if_pos (by omega)]
  · rw [if_neg h2, if_neg (by omega)]

end

open RealArith Finset Polynomial

theorem upMul_real (x : ℝ) : ∀ i, upMul x i = ∏ k ∈ range (i + 1), (x - k) := by
  intro i
  induction i with
  | zero => simp [upMul]
  | succ i ih => rw [upMul, ih, prod_range_succ _ (i + 1)]; simp

theorem downMul_real (N : Nat) (x : ℝ) : ∀ i, i < N → downMul N x i = ∏ k ∈ Ico (N - 1 - i) N, (x - k) := by
  intro i hi
  induction i with
  | zero =>
    rw [downMul, show N - 1 - 0 = N - 1 by omega]
    have : Ico (N - 1) N = {N - 1} := by ext k; simp; omega
    rw [this, prod_singleton]
    simp only [add_def, sub_def, ofInt_def]
    rw [Nat.cast_sub (by omega)]; push_cast; ring
  | succ i ih =>
    rw [downMul, ih (by omega)]
    have : Ico (N - 1 - (i + 1)) N = insert (N - 1 - (i + 1)) (Ico (N - 1 - i) N) := by
      ext k; simp only [mem_Ico, mem_insert]; omega
    rw [this, prod_insert (by simp; omega)]
    simp only [add_def, sub_def, ofInt_def, mul_def]
    rw [Nat.cast_sub (by omega), Nat.cast_sub (by omega)]; push_cast; ring

theorem foldl_mul_real (f : Nat → ℝ) : ∀ (l : List Nat) (a : ℝ),
    l.foldl (fun w n => Arith.mul w (f n)) a = a * (l.map f).prod := by
  intro l
  induction l with
  | nil => intro a; simp
  | cons b l ih => intro a; rw [List.foldl_cons, ih]; simp [mul_assoc]

theorem baseWgt1_real (N m : Nat) (hm : m < N) :
    (baseWgt1 N m : ℝ) = (∏ k ∈ range m, ((m : ℝ) - k))⁻¹ * (∏ k ∈ Ico (m + 1) N, ((m : ℝ) - k))⁻¹ := by
  unfold baseWgt1
  simp only [foldl_mul_real]
  simp only [div_def, ofInt_def]
  have e1 : ((List.range m).map (fun n : Nat => (((m : Int) - n : Int) : ℝ))).prod = ∏ k ∈ range m, ((m : ℝ) - k) := by
    rw [← List.toFinset_range]
    rw [List.prod_toFinset _ List.nodup_range]
    congr 1
    apply List.map_congr_left; intro k _; push_cast; ring
  have e2 : ((List.range' (m + 1) (N - (m + 1))).map (fun n : Nat => (((m : Int) - n : Int) : ℝ))).prod =
      ∏ k ∈ Ico (m + 1) N, ((m : ℝ) - k) := by
    have : (List.range' (m + 1) (N - (m + 1))).toFinset = Ico (m + 1) N := by
      ext k; simp only [List.mem_toFinset, List.mem_range'_1, mem_Ico]; omega
    rw [← this, List.prod_toFinset _ List.nodup_range']
    congr 1
    apply List.map_congr_left; intro k _; push_cast; ring
  rw [e1, e2]
  push_cast
  rw [one_mul, one_div, mul_inv]

/-- In exact arithmetic the weight of node `m` is the Lagrange basis polynomial of the nodes
`0 … N-1`, at `x`. -/
theorem wgt_real (N : Nat) (x : ℝ) (m : Nat) (hm : m < N) :
    wgt N x m = ∏ k ∈ (range N).erase m, ((x - k) / ((m : ℝ) - k)) := by
  have hup : (if 1 ≤ m then Arith.mul (baseWgt1 N m) (upMul x (m - 1)) else (baseWgt1 N m : ℝ)) =
      baseWgt1 N m * ∏ k ∈ range m, (x - k) := by
    split
    · rename_i h; rw [upMul_real, Nat.sub_add_cancel h]; rfl
    · rename_i h
      have : m = 0 := by omega
      subst this; simp
  have hdown : wgt N x m = baseWgt1 N m * (∏ k ∈ range m, (x - k)) * ∏ k ∈ Ico (m + 1) N, (x - k) := by
    unfold wgt
    simp only [hup]
    split
    · rename_i h
      rw [downMul_real _ _ _ (by omega), show N - 1 - (N - 2 - m) = m + 1 by omega]; rfl
    · rename_i h
      have : Ico (m + 1) N = ∅ := by rw [Ico_eq_empty_iff]; omega
      rw [this]; simp
  have hsplit : (range N).erase m = range m ∪ Ico (m + 1) N := by
    ext k; simp only [mem_erase, mem_range, mem_union, mem_Ico]; omega
  have hdisj : Disjoint (range m) (Ico (m + 1) N) := by
    rw [Finset.disjoint_left]; intro k h1 h2; simp only [mem_range, mem_Ico] at h1 h2; omega
  rw [hdown, baseWgt1_real N m hm, hsplit, prod_union hdisj, prod_div_distrib, prod_div_distrib]
  rw [div_eq_mul_inv, div_eq_mul_inv]
  ring

/-- C12: the weights computed by the code reproduce every polynomial of degree `< N` (`N = order + 1`)
at every offset. -/
theorem C12_reproduces_polynomials (N : Nat) (x : ℝ) (p : ℝ[X]) (hp : p.degree < N) :
    ∃ w : List ℝ, weightNcm N x = ok w ∧ w.length = N ∧
      ∑ m ∈ range N, w.getD m 0 * p.eval (m : ℝ) = p.eval x := by
  refine ⟨_, weightNcm_eq N x, by simp, ?_⟩
  have hinj : Set.InjOn (fun i : Nat => (i : ℝ)) (range N : Finset Nat) := fun a _ b _ h => by
    simpa using h
  have h := Lagrange.eq_interpolate (s := range N) (v := fun i : Nat => (i : ℝ)) (f := p) hinj (by simpa using hp)
  conv_rhs => rw [h, Lagrange.interpolate_apply, eval_finset_sum]
  apply sum_congr rfl
  intro m hm
  rw [mem_range] at hm
  rw [getD_map_range hm, wgt_real N x m hm, eval_mul, eval_C, mul_comm]
  congr 1
  unfold Lagrange.basis
  rw [eval_prod]
  apply prod_congr rfl
  intro k _
  unfold Lagrange.basisDivisor
  rw [eval_mul, eval_C, eval_sub, eval_X, eval_C, div_eq_mul_inv, mul_comm]

/-- C12: the weights sum to one. -/
theorem C12_sum_one (N : Nat) (hN : 1 ≤ N) (x : ℝ) :
    ∃ w : List ℝ, weightNcm N x = ok w ∧ ∑ m ∈ range N, w.getD m 0 = 1 := by
  obtain ⟨w, h1, _, h3⟩ := C12_reproduces_polynomials N x 1 (by
    rw [degree_one]; exact_mod_cast hN)
  refine ⟨w, h1, ?_⟩
  simpa using h3

/-- C12: at a node the weights are the unit vector. -/
theorem C12_unit_at_node (N j : Nat) (hj : j < N) :
    weightNcm N (j : ℝ) = ok ((List.range N).map (fun m => if m = j then 1 else 0)) := by
  rw [weightNcm_eq]
  congr 1
  apply List.map_congr_left
  intro m hm
  rw [List.mem_range] at hm
  rw [wgt_real N _ m hm]
  by_cases h : m = j
  · subst h
    rw [if_pos rfl]
    apply prod_eq_one
    intro k hk
    rw [mem_erase] at hk
    apply div_self
    rw [sub_ne_zero]
    exact_mod_cast (Ne.symm hk.1)
  · rw [if_neg h]
    apply prod_eq_zero (i := j)
    · simp [mem_erase, hj, Ne.symm h]
    · simp

end Verif.Tod
