import Verif.Util.Rot

/-!
# C85: matrix products that store their result

`matmult`, `TransposeTimes`, `Transpose` and `Transform` of levels/cxxsupport/rotmatrix.cc and ls_rotmatrix.h work on references: the
model is a memory of numbers, in which a matrix takes nine consecutive cells by rows and a vector three.  Arithmetic is exact.
-/

namespace Verif.Rot.InPlace
open Matrix

/-- Memory. -/
abbrev Mem := ℕ → ℝ

/-- `*p = v` -/
def st (m : Mem) (p : ℕ) (v : ℝ) : Mem := Function.update m p v

/-- The order of the two loops. -/
def order : List (ℕ × ℕ) := [(0, 0), (0, 1), (0, 2), (1, 0), (1, 1), (1, 2), (2, 0), (2, 1), (2, 2)]

/-- `for i, j: res.entry[i][j] = …` -/
def fill (r : ℕ) (val : Mem → ℕ → ℕ → ℝ) (L : List (ℕ × ℕ)) (m : Mem) : Mem :=
  L.foldl (fun m ij => st m (r + 3 * ij.1 + ij.2) (val m ij.1 ij.2)) m

/-- `matmult(a, b, res)`, rotmatrix.cc:180-187. -/
def matmult (a b r : ℕ) (m : Mem) : Mem :=
  fill r (fun m i j => m (a + 3 * i) * m (b + j) + m (a + 3 * i + 1) * m (b + 3 + j) + m (a + 3 * i + 2) * m (b + 6 + j)) order m

/-- `TransposeTimes(a, b, res)`, rotmatrix.cc:189-196. -/
def transposeTimes (a b r : ℕ) (m : Mem) : Mem :=
  fill r (fun m i j => m (a + i) * m (b + j) + m (a + 3 + i) * m (b + 3 + j) + m (a + 6 + i) * m (b + 6 + j)) order m

/-- `std::swap` of two cells. -/
def swap (m : Mem) (p q : ℕ) : Mem := st (st m p (m q)) q (m p)

/-- `Transpose`, rotmatrix.cc:60-65. -/
def transpose (a : ℕ) (m : Mem) : Mem := swap (swap (swap m (a + 1) (a + 3)) (a + 2) (a + 6)) (a + 5) (a + 7)

/-- `Transform(vec, vec2)`, ls_rotmatrix.h:111-116. -/
def transform (a v w : ℕ) (m : Mem) : Mem :=
  let m := st m w (m v * m a + m (v + 1) * m (a + 1) + m (v + 2) * m (a + 2))
  let m := st m (w + 1) (m v * m (a + 3) + m (v + 1) * m (a + 4) + m (v + 2) * m (a + 5))
  st m (w + 2) (m v * m (a + 6) + m (v + 1) * m (a + 7) + m (v + 2) * m (a + 8))

/-! ## specification -/

/-- The matrix at address `p`. -/
def mat (m : Mem) (p : ℕ) : Matrix (Fin 3) (Fin 3) ℝ := fun i j => m (p + 3 * i + j)

/-- The vector at address `p`. -/
def vec (m : Mem) (p : ℕ) : Fin 3 → ℝ := fun i => m (p + i)

/-- Blocks of `k` and `l` cells at `p` and `q` have no cell in common. -/
def Apart (p k q l : ℕ) : Prop := p + k ≤ q ∨ q + l ≤ p

/-- Nothing outside the block of `k` cells at `p` is changed. -/
def Only (p k : ℕ) (m m' : Mem) : Prop := ∀ c, c < p ∨ p + k ≤ c → m' c = m c

/-! ## proofs -/

theorem fill_spec (r : ℕ) (val : Mem → ℕ → ℕ → ℝ) (m : Mem)
    (hval : ∀ m', Only r 9 m m' → ∀ i < 3, ∀ j < 3, val m' i j = val m i j) (L : List (ℕ × ℕ)) :
    (∀ ij ∈ L, ij.1 < 3 ∧ ij.2 < 3) → Only r 9 m (fill r val L m) ∧
      ∀ i < 3, ∀ j < 3, (i, j) ∈ L → fill r val L m (r + 3 * i + j) = val m i j := by
  induction L using List.reverseRecOn with
  | nil => exact fun _ => ⟨fun _ _ => rfl, fun i _ j _ h => by cases h⟩
  | append_singleton L x ih =>
    intro hL
    obtain ⟨h1, h2⟩ := ih (fun ij h => hL ij (by simp [h]))
    obtain ⟨x1, x2⟩ := hL x (by simp)
    have e : fill r val (L ++ [x]) m = st (fill r val L m) (r + 3 * x.1 + x.2) (val (fill r val L m) x.1 x.2) := by
      simp [fill]
    rw [e]
    refine ⟨fun c hc => ?_, fun i hi j hj hm => ?_⟩
    · unfold st
      rw [Function.update_of_ne (by omega)]
      exact h1 c hc
    · unfold st
      by_cases hx : (i, j) = x
      · subst hx
        rw [Function.update_self]
        exact hval _ h1 i hi j hj
      · have : (i, j) ∈ L := by simpa [hx] using hm
        rw [Function.update_of_ne (fun e => hx (Prod.ext (by dsimp only; omega) (by dsimp only; omega)))]
        exact h2 i hi j hj this

theorem order_lt : ∀ ij ∈ order, ij.1 < 3 ∧ ij.2 < 3 := by decide

theorem mem_order (i j : Fin 3) : ((i : ℕ), (j : ℕ)) ∈ order := by revert i j; decide

/-- Into a matrix that shares no storage with the factors (which may be one matrix, or overlap), the product; nothing else is changed. -/
theorem C85_matmult_partial (a b r : ℕ) (m : Mem) (ha : Apart a 9 r 9) (hb : Apart b 9 r 9) :
    mat (matmult a b r m) r = mat m a * mat m b ∧ Only r 9 m (matmult a b r m) := by
  obtain ⟨h1, h2⟩ := fill_spec r (fun m i j => m (a + 3 * i) * m (b + j) + m (a + 3 * i + 1) * m (b + 3 + j) + m (a + 3 * i + 2) * m (b + 6 + j)) m (fun m' hm i hi j hj => by
    unfold Apart at ha hb
    rw [hm (a + 3 * i) (by omega), hm (b + j) (by omega), hm (a + 3 * i + 1) (by omega), hm (b + 3 + j) (by omega), hm (a + 3 * i + 2) (by omega),
      hm (b + 6 + j) (by omega)]) order order_lt
  refine ⟨?_, h1⟩
  ext i j
  have := h2 i i.isLt j j.isLt (mem_order i j)
  rw [Matrix.mul_apply, Fin.sum_univ_three]
  change matmult a b r m (r + 3 * i + j) = _
  unfold matmult
  rw [this]
  simp [mat, Nat.add_assoc]

/-- The same for the product with the transpose of the first factor. -/
theorem C85_transpose_times_partial (a b r : ℕ) (m : Mem) (ha : Apart a 9 r 9) (hb : Apart b 9 r 9) :
    mat (transposeTimes a b r m) r = (mat m a)ᵀ * mat m b ∧ Only r 9 m (transposeTimes a b r m) := by
  obtain ⟨h1, h2⟩ := fill_spec r (fun m i j => m (a + i) * m (b + j) + m (a + 3 + i) * m (b + 3 + j) + m (a + 6 + i) * m (b + 6 + j)) m (fun m' hm i hi j hj => by
    unfold Apart at ha hb
    rw [hm (a + i) (by omega), hm (b + j) (by omega), hm (a + 3 + i) (by omega), hm (b + 3 + j) (by omega), hm (a + 6 + i) (by omega),
      hm (b + 6 + j) (by omega)]) order order_lt
  refine ⟨?_, h1⟩
  ext i j
  have := h2 i i.isLt j j.isLt (mem_order i j)
  rw [Matrix.mul_apply, Fin.sum_univ_three]
  change transposeTimes a b r m (r + 3 * i + j) = _
  unfold transposeTimes
  rw [this]
  simp [mat, Nat.add_assoc]

/-- Transposition in place. -/
theorem C85_transpose (a : ℕ) (m : Mem) : mat (transpose a m) a = (mat m a)ᵀ ∧ Only a 9 m (transpose a m) := by
  constructor
  · ext i j
    rw [Matrix.transpose_apply]
    change transpose a m (a + 3 * i + j) = m (a + 3 * j + i)
    unfold transpose swap st
    fin_cases i <;> fin_cases j <;> simp [Nat.add_assoc]
  · intro c hc
    unfold transpose swap st
    simp only [Function.update_apply]
    split_ifs <;> first | rfl | omega

/-- Into a vector that shares no storage with the matrix and the argument, the product. -/
theorem C85_transform_partial (a v w : ℕ) (m : Mem) (ha : Apart a 9 w 3) (hv : Apart v 3 w 3) :
    vec (transform a v w m) w = (mat m a).mulVec (vec m v) ∧ Only w 3 m (transform a v w m) := by
  unfold Apart at ha hv
  have g (m' : Mem) (p : ℕ) (x : ℝ) (q : ℕ) (h : q ≠ p) : st m' p x q = m' q := Function.update_of_ne h ..
  have gs (m' : Mem) (p : ℕ) (x : ℝ) : st m' p x p = x := Function.update_self ..
  constructor
  · ext i
    rw [Matrix.mulVec, dotProduct, Fin.sum_univ_three]
    change transform a v w m (w + i) = m (a + 3 * i + 0) * m (v + 0) + m (a + 3 * i + 1) * m (v + 1) + m (a + 3 * i + 2) * m (v + 2)
    unfold transform
    have hi : (i : ℕ) = 0 ∨ (i : ℕ) = 1 ∨ (i : ℕ) = 2 := by omega
    rcases hi with hi | hi | hi <;> rw [hi]
    · rw [g _ (w + 2) _ (w + 0) (by omega), g _ (w + 1) _ (w + 0) (by omega), Nat.add_zero w, gs]
      simp only [Nat.mul_zero, Nat.add_zero]
      ring
    · rw [g _ (w + 2) _ (w + 1) (by omega), gs, g _ w _ v (by omega), g _ w _ (a + 3) (by omega), g _ w _ (v + 1) (by omega),
        g _ w _ (a + 4) (by omega), g _ w _ (v + 2) (by omega), g _ w _ (a + 5) (by omega)]
      simp only [Nat.mul_one, Nat.add_zero, Nat.add_assoc, Nat.reduceAdd]
      ring
    · rw [gs]
      have e (q : ℕ) (h1 : q ≠ w) (h2 : q ≠ w + 1) (x y : ℝ) : st (st m w x) (w + 1) y q = m q := by rw [g _ _ _ _ h2, g _ _ _ _ h1]
      rw [e v (by omega) (by omega), e (a + 6) (by omega) (by omega), e (v + 1) (by omega) (by omega), e (a + 7) (by omega) (by omega),
        e (v + 2) (by omega) (by omega), e (a + 8) (by omega) (by omega)]
      simp only [Nat.reduceMul, Nat.add_zero, Nat.add_assoc, Nat.reduceAdd]
      ring
  · intro c hc
    unfold transform
    rw [g _ _ _ _ (by omega), g _ _ _ _ (by omega), g _ _ _ _ (by omega)]

/-- The whole property: every call gives the documented product. -/
def C85_Full : Prop := ∀ (a b r : ℕ) (m : Mem), (r = a ∨ Apart a 9 r 9) → (r = b ∨ Apart b 9 r 9) →
  mat (matmult a b r m) r = mat m a * mat m b

/-- It fails when the result is stored in a factor: the entries of a row are used after they were replaced. -/
theorem C85_full_refuted : ¬C85_Full := by
  intro h
  have := congrFun (congrFun (h 0 9 0 (fun c => if c = 1 ∨ c = 10 ∨ c = 12 then 1 else 0) (Or.inl rfl) (Or.inr (Or.inr (by norm_num)))) 0) 1
  rw [Matrix.mul_apply, Fin.sum_univ_three] at this
  simp [mat, matmult, fill, order, st] at this

/-- The same for `Transform` in place. -/
theorem C85_transform_in_place : ∃ m : Mem, vec (transform 3 0 0 m) 0 ≠ (mat m 3).mulVec (vec m 0) := by
  refine ⟨fun c => if c = 1 ∨ c = 4 ∨ c = 6 then 1 else 0, fun h => ?_⟩
  have := congrFun h 1
  rw [Matrix.mulVec, dotProduct, Fin.sum_univ_three] at this
  simp [mat, vec, transform, st] at this

/-- Non-vacuity: three matrices side by side, and a square. -/
example : Apart 0 9 18 9 ∧ Apart 9 9 18 9 ∧ Apart 0 9 9 3 ∧ Apart 12 3 9 3 := by unfold Apart; omega

end Verif.Rot.InPlace
