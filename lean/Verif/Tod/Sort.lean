import Verif.Tod.Witness

/-!
# `hpsort_arr` and siblings on the flat buffers (C37)

All of src/conviqt_util.cpp, element by element: `hpsort_arr` (:52-98) with its wrappers (:101-118), `hpsort_DL` (:7-49) and
`hpsort_DDcm` (:120-160).  `srt` is what `std::sort` does with the vector of (key, index) pairs.  In `hpsort_DL`/`hpsort_DDcm` the
closing `memcpy` of `n` elements is an element-wise copy (for `n = 0` a copy of nothing).
-/

namespace Verif.Tod
open Verif Res

variable {F : Type} [Arith F]

/-- `pairs[i] = std::make_pair(ra[stride * i + off], i)`, src/conviqt_util.cpp:20-23, 64-67, 133-136. -/
def keyPairs (ra : List F) (n stride off : Nat) : Res (List (F × Nat)) :=
  (List.range n).mapM (fun i : Nat => do
    let x ← rd ra ((stride * i + off : Nat) : Int)
    ok (x, i))

/-- One column, src/conviqt_util.cpp:80-96. -/
def sortColumn (pairs : List (F × Nat)) (n sortcol col : Nat) (ra : List F) : Res (List F) :=
  if col = sortcol then
    forN n (fun i ra => do
      let p ← rd pairs (i : Int)
      wr ra ((5 * i + col : Nat) : Int) p.1) ra
  else do
    let temp ← forN n (fun i temp => do
      let p ← rd pairs (i : Int)
      let x ← rd ra ((5 * p.2 + col : Nat) : Int)
      wr temp (i : Int) x) (List.replicate n (Arith.ofInt 0))
    forN n (fun i ra => do
      let x ← rd temp (i : Int)
      wr ra ((5 * i + col : Nat) : Int) x) ra

/-- `hpsort_arr`, src/conviqt_util.cpp:52-98. -/
def hpsortArr (srt : List (F × Nat) → List (F × Nat)) (ra : List F) (sortcol : Int) : Res (List F) :=
  if sortcol < 0 ∨ 4 < sortcol then throw "Sort column must be between 0 and 4."
  else do
    let pairs ← keyPairs ra (ra.length / 5) 5 sortcol.toNat
    forN 5 (fun col ra => sortColumn (srt pairs) (ra.length / 5) sortcol.toNat col ra) ra

/-- `hpsort_arrTheta`, `hpsort_arrTOD`, `hpsort_arrTime`, src/conviqt_util.cpp:101-118. -/
def hpsortArrTheta (srt : List (F × Nat) → List (F × Nat)) (ra : List F) : Res (List F) := hpsortArr srt ra 1
/-- src/conviqt_util.cpp:107-111 -/
def hpsortArrTOD (srt : List (F × Nat) → List (F × Nat)) (ra : List F) : Res (List F) := hpsortArr srt ra 3
/-- src/conviqt_util.cpp:114-118 -/
def hpsortArrTime (srt : List (F × Nat) → List (F × Nat)) (ra : List F) : Res (List F) := hpsortArr srt ra 4

/-- `hpsort_DL`, src/conviqt_util.cpp:7-49; `β` is `long`. -/
def hpsortDL {β : Type} (zero : β) (srt : List (F × Nat) → List (F × Nat)) (ra : List F) (brr : List β) : Res (List F × List β) :=
  if ra.length ≠ brr.length then throw "Incompatible dimensions"
  else do
    let n := ra.length
    let pairs0 ← keyPairs ra n 1 0
    let pairs := srt pairs0
    let ra ← forN n (fun i ra => do
      let p ← rd pairs (i : Int)
      wr ra (i : Int) p.1) ra
    let temp ← forN n (fun i temp => do
      let p ← rd pairs (i : Int)
      let x ← rd brr (p.2 : Int)
      wr temp (i : Int) x) (List.replicate n zero)
    let brr ← forN n (fun i brr => do
      let x ← rd temp (i : Int)
      wr brr (i : Int) x) brr
    ok (ra, brr)

/-- `hpsort_DDcm`, src/conviqt_util.cpp:120-160: `ra` serves as workspace for `brr`. -/
def hpsortDDcm (srt : List (F × Nat) → List (F × Nat)) (ra brr : List F) : Res (List F × List F) :=
  if ra.length ≠ brr.length then throw "Incompatible dimensions"
  else do
    let n := ra.length
    let pairs0 ← keyPairs ra n 1 0
    let pairs := srt pairs0
    let ra ← forN n (fun i ra => do
      let p ← rd pairs (i : Int)
      let x ← rd brr (p.2 : Int)
      wr ra (i : Int) x) ra
    let brr ← forN n (fun i brr => do
      let x ← rd ra (i : Int)
      wr brr (i : Int) x) brr
    let ra ← forN n (fun i ra => do
      let p ← rd pairs (i : Int)
      wr ra (i : Int) p.1) ra
    ok (ra, brr)

/-! ## Specification -/

/-- `std::sort` sorts: the pairs are permuted, no key is smaller than an earlier one.  (Assumed for keys taken from the buffer; for doubles this
requires that no key is NaN.) -/
def Sorts (srt : List (F × Nat) → List (F × Nat)) (keys : List F) : Prop :=
  ∀ l : List (F × Nat), (∀ p ∈ l, p.1 ∈ keys) → (srt l).Perm l ∧ (srt l).Pairwise (fun p q => Arith.lt q.1 p.1 = false)

/-- Two buffers of complete rows of five: the second is the first with its rows in the order `σ` (a rearrangement of all row numbers);
elements behind the last complete row are unchanged. -/
def RowsReordered (n : Nat) (ra out : List F) (σ : List Nat) : Prop :=
  σ.Perm (List.range n) ∧ out.length = ra.length ∧
    (∀ i < n, ∀ c < 5, out[5 * i + c]? = ra[5 * σ.getD i 0 + c]?) ∧ ∀ k, 5 * n ≤ k → out[k]? = ra[k]?

/-! ## loops -/

/-- A loop that writes `g i` to position `s * i + o`. -/
theorem writeLoop {γ : Type} {n s o : Nat} (hs : o < s) (f : Nat → Res γ) (g : Nat → γ) (ra : List γ)
    (hf : ∀ i < n, f i = ok (g i)) (hlen : ∀ i < n, s * i + o < ra.length) :
    ∃ out, forN n (fun i ra => f i >>= fun x => wr ra ((s * i + o : Nat) : Int) x) ra = ok out ∧ out.length = ra.length ∧
      ∀ k, out[k]? = if k % s = o ∧ k / s < n then some (g (k / s)) else ra[k]? := by
  obtain ⟨t, ht, hP⟩ := forN_inv n (fun i ra => f i >>= fun x => wr ra ((s * i + o : Nat) : Int) x) ra
    (fun i l => l.length = ra.length ∧ ∀ k, l[k]? = if k % s = o ∧ k / s < i then some (g (k / s)) else ra[k]?)
    ⟨rfl, fun k => by rw [if_neg (fun h => Nat.not_lt_zero _ h.2)]⟩ (by
      intro i l hi hl
      rw [hf i hi, ok_bind, wr_nat _ (by rw [hl.1]; exact hlen i hi)]
      refine ⟨_, rfl, by simp [hl.1], fun k => ?_⟩
      have hmod : (s * i + o) % s = o := by rw [Nat.mul_add_mod]; exact Nat.mod_eq_of_lt hs
      have hdiv : (s * i + o) / s = i := by rw [Nat.mul_add_div (by omega), Nat.div_eq_of_lt hs, Nat.add_zero]
      rw [List.getElem?_set]
      by_cases hk : s * i + o = k
      · subst hk
        rw [if_pos rfl, if_pos (by rw [hl.1]; exact hlen i hi), if_pos ⟨hmod, by omega⟩, hdiv]
      · rw [if_neg hk, hl.2 k]
        by_cases hc : k % s = o ∧ k / s < i
        · rw [if_pos hc, if_pos ⟨hc.1, by omega⟩]
        · rw [if_neg hc, if_neg]
          rintro ⟨h1, h2⟩
          have : k / s = i := by
            by_contra h3; exact hc ⟨h1, by omega⟩
          apply hk
          rw [← this, ← h1]
          exact Nat.div_add_mod k s)
  exact ⟨t, ht, hP.1, hP.2⟩

/-- A loop that fills an array of its length. -/
theorem fillLoop {γ : Type} {n : Nat} (f : Nat → Res γ) (g : Nat → γ) (ra : List γ) (hlen : ra.length = n)
    (hf : ∀ i < n, f i = ok (g i)) :
    forN n (fun i ra => f i >>= fun x => wr ra (i : Int) x) ra = ok ((List.range n).map g) := by
  obtain ⟨out, h1, h2, h3⟩ := writeLoop (n := n) (s := 1) (o := 0) (by omega) f g ra hf (by intro i hi; omega)
  have e : (fun (i : Nat) (ra : List γ) => f i >>= fun x => wr ra ((1 * i + 0 : Nat) : Int) x) =
      (fun (i : Nat) (ra : List γ) => f i >>= fun x => wr ra (i : Int) x) := by
    funext i ra; simp
  rw [e] at h1
  rw [h1]
  congr 1
  apply List.ext_getElem?
  intro k
  rw [h3 k]
  by_cases hk : k < n
  · rw [if_pos ⟨by omega, by simpa using hk⟩]; simp [hk]
  · rw [if_neg (by intro h; have := h.2; simp at this; omega), List.getElem?_eq_none (by omega), List.getElem?_eq_none (by simp; omega)]

theorem keyPairs_ok (ra : List F) (n stride off : Nat) (h : ∀ i < n, stride * i + off < ra.length) :
    keyPairs ra n stride off = ok ((List.range n).map (fun i => (ra.getD (stride * i + off) (Arith.ofInt 0), i))) := by
  unfold keyPairs
  apply mapM_ok
  intro i hi
  have := h i (List.mem_range.mp hi)
  rw [rd_nat this, ok_bind]
  simp [List.getD, this]

theorem sortColumn_ok (pairs : List (F × Nat)) (n sortcol col : Nat) (ra : List F) (hlen : 5 * n ≤ ra.length) (hcol : col < 5)
    (hp : pairs.length = n) (hlt : ∀ p ∈ pairs, p.2 < n)
    (hkey : col = sortcol → ∀ p ∈ pairs, ra[5 * p.2 + col]? = some p.1) :
    ∃ out, sortColumn pairs n sortcol col ra = ok out ∧ out.length = ra.length ∧
      ∀ k, out[k]? = if k % 5 = col ∧ k / 5 < n then ra[5 * (pairs.map Prod.snd).getD (k / 5) 0 + col]? else ra[k]? := by
  let d : F × Nat := (Arith.ofInt 0, 0)
  have hpr : ∀ i < n, rd pairs (i : Int) = ok (pairs.getD i d) := by
    intro i hi
    rw [rd_nat (by omega)]; simp [List.getD, show i < pairs.length by omega]
  have hmem : ∀ i < n, pairs.getD i d ∈ pairs := by
    intro i hi
    simp [List.getD, show i < pairs.length by omega]
  have hσ : ∀ i < n, (pairs.map Prod.snd).getD i 0 = (pairs.getD i d).2 := by
    intro i hi
    simp [List.getD, show i < pairs.length by omega]
  unfold sortColumn
  by_cases hc : col = sortcol
  · rw [if_pos hc]
    obtain ⟨out, h1, h2, h3⟩ := writeLoop (n := n) (s := 5) (o := col) hcol (fun i => rd pairs (i : Int) >>= fun p => ok p.1)
      (fun i => (pairs.getD i d).1) ra (by intro i hi; rw [hpr i hi, ok_bind]) (by intro i hi; omega)
    refine ⟨out, ?_, h2, fun k => ?_⟩
    · rw [← h1]
      congr 1
      funext i ra
      cases rd pairs (i : Int) <;> rfl
    · rw [h3 k]
      split
      next h => rw [hσ _ h.2, hkey hc _ (hmem _ h.2)]
      next h => rfl
  · rw [if_neg hc]
    have hx : ∀ i < n, (rd pairs (i : Int) >>= fun p => rd ra ((5 * p.2 + col : Nat) : Int)) =
        ok (ra.getD (5 * (pairs.getD i d).2 + col) (Arith.ofInt 0)) := by
      intro i hi
      have := hlt _ (hmem i hi)
      have hb : 5 * (pairs.getD i d).2 + col < ra.length := by omega
      rw [hpr i hi, ok_bind, rd_nat hb]
      simp only [List.getD] at hb ⊢
      rw [List.getElem?_eq_getElem hb]; rfl
    have ht := fillLoop (n := n) (fun i => rd pairs (i : Int) >>= fun p => rd ra ((5 * p.2 + col : Nat) : Int))
      (fun i => ra.getD (5 * (pairs.getD i d).2 + col) (Arith.ofInt 0)) (List.replicate n (Arith.ofInt 0)) (by simp) hx
    have e : (fun (i : Nat) (temp : List F) => (rd pairs (i : Int) >>= fun p => rd ra ((5 * p.2 + col : Nat) : Int)) >>= fun x => wr temp (i : Int) x) =
        (fun (i : Nat) (temp : List F) => rd pairs (i : Int) >>= fun p => rd ra ((5 * p.2 + col : Nat) : Int) >>= fun x => wr temp (i : Int) x) := by
      funext i temp
      cases rd pairs (i : Int) <;> rfl
    rw [e] at ht
    rw [ht, ok_bind]
    set temp := (List.range n).map (fun i => ra.getD (5 * (pairs.getD i d).2 + col) (Arith.ofInt 0)) with htemp
    obtain ⟨out, h1, h2, h3⟩ := writeLoop (n := n) (s := 5) (o := col) hcol (fun i => rd temp (i : Int))
      (fun i => ra.getD (5 * (pairs.getD i d).2 + col) (Arith.ofInt 0)) ra (by
        intro i hi
        rw [rd_nat (by simp [htemp, hi])]
        simp [htemp]) (by intro i hi; omega)
    refine ⟨out, h1, h2, fun k => ?_⟩
    rw [h3 k]
    split
    next h =>
      rw [hσ _ h.2]
      have := hlt _ (hmem _ h.2)
      have hb : 5 * (pairs.getD (k / 5) d).2 + col < ra.length := by omega
      simp only [List.getD] at hb ⊢
      rw [List.getElem?_eq_getElem hb]; rfl
    next h => rfl

/-- Effect of `hpsort_arr`, with the permutation that `std::sort` chose. -/
theorem hpsortArr_spec (srt : List (F × Nat) → List (F × Nat)) (ra : List F) {col : Nat} (hcol : col < 5)
    (hsort : Sorts srt ra) :
    ∃ P out, P = srt ((List.range (ra.length / 5)).map (fun i => (ra.getD (5 * i + col) (Arith.ofInt 0), i))) ∧
      hpsortArr srt ra col = ok out ∧ RowsReordered (ra.length / 5) ra out (P.map Prod.snd) ∧
      (∀ p ∈ P, ra[5 * p.2 + col]? = some p.1 ∧ p.2 < ra.length / 5) ∧
      P.Pairwise (fun p q => Arith.lt q.1 p.1 = false) := by
  set n := ra.length / 5 with hn
  have h5 : 5 * n ≤ ra.length := by omega
  set L := (List.range n).map (fun i => (ra.getD (5 * i + col) (Arith.ofInt 0), i)) with hL
  have hL1 : ∀ p ∈ L, ra[5 * p.2 + col]? = some p.1 ∧ p.2 < n := by
    intro p hp
    obtain ⟨i, hi, rfl⟩ := List.mem_map.mp hp
    rw [List.mem_range] at hi
    refine ⟨?_, hi⟩
    have hb : 5 * i + col < ra.length := by omega
    simp only [List.getD]
    rw [List.getElem?_eq_getElem hb]; rfl
  obtain ⟨hperm, hpw⟩ := hsort L (fun p hp => List.mem_of_getElem? (hL1 p hp).1)
  have hP1 : ∀ p ∈ srt L, ra[5 * p.2 + col]? = some p.1 ∧ p.2 < n := fun p hp => hL1 p (hperm.mem_iff.mp hp)
  have hPlen : (srt L).length = n := by rw [hperm.length_eq]; simp [hL]
  set σ := (srt L).map Prod.snd with hσ
  have hσp : σ.Perm (List.range n) := by
    refine (hperm.map Prod.snd).trans (List.Perm.of_eq ?_)
    rw [hL, List.map_map]; simp [Function.comp_def]
  have hσlt : ∀ i < n, σ.getD i 0 < n := by
    intro i hi
    have hb : i < σ.length := by rw [hσ, List.length_map, hPlen]; exact hi
    have : σ.getD i 0 ∈ σ := by simp [List.getD, hb]
    exact List.mem_range.mp (hσp.mem_iff.mp this)
  obtain ⟨out, ho, hl, hQ⟩ := forN_inv 5 (fun c ra => sortColumn (srt L) (ra.length / 5) col c ra) ra
    (fun c l => l.length = ra.length ∧ ∀ k, l[k]? = if k % 5 < c ∧ k / 5 < n then ra[5 * σ.getD (k / 5) 0 + k % 5]? else ra[k]?)
    ⟨rfl, fun k => by rw [if_neg (by omega)]⟩ (by
      intro c l hc hl
      have hnl : l.length / 5 = n := by rw [hl.1]
      have same : ∀ j, j < n → l[5 * j + c]? = ra[5 * j + c]? := by
        intro j hj
        rw [hl.2, if_neg (by omega)]
      obtain ⟨out, h1, h2, h3⟩ := sortColumn_ok (srt L) n col c l (by rw [hl.1]; exact h5) hc hPlen (fun p hp => (hP1 p hp).2)
        (by
          intro he p hp
          rw [same _ (hP1 p hp).2, he]
          exact (hP1 p hp).1)
      refine ⟨out, by simp only [hnl]; exact h1, h2.trans hl.1, fun k => ?_⟩
      rw [h3 k]
      by_cases hk : k / 5 < n
      · by_cases h4 : k % 5 = c
        · rw [if_pos ⟨h4, hk⟩, if_pos ⟨by omega, hk⟩, same _ (hσlt _ hk), h4]
        · rw [if_neg (by omega), hl.2 k]
          by_cases h6 : k % 5 < c
          · rw [if_pos ⟨h6, hk⟩, if_pos ⟨by omega, hk⟩]
          · rw [if_neg (by omega), if_neg (by omega)]
      · rw [if_neg (by omega), hl.2 k, if_neg (by omega), if_neg (by omega)])
  refine ⟨srt L, out, rfl, ?_, ⟨hσp, hl, ?_, ?_⟩, hP1, hpw⟩
  · unfold hpsortArr
    rw [if_neg (by omega)]
    simp only [Int.toNat_natCast]
    rw [keyPairs_ok ra _ 5 col (by intro i hi; omega), ok_bind]
    exact ho
  · intro i hi c hc
    rw [hQ, if_pos ⟨by omega, by omega⟩, show (5 * i + c) / 5 = i by omega, show (5 * i + c) % 5 = c by omega]
  · intro k hk
    rw [hQ, if_neg (by omega)]

/-- **C37** Sorting a buffer of 5-column rows by column `col`: the rows are rearranged as a whole (each row number occurs exactly once, all
five columns move together), the sort column is non-decreasing, elements behind the last complete row stay. -/
theorem C37_buffer_sorted (srt : List (F × Nat) → List (F × Nat)) (ra : List F) {col : Nat} (hcol : col < 5) (hsort : Sorts srt ra) :
    ∃ out σ, hpsortArr srt ra col = ok out ∧ RowsReordered (ra.length / 5) ra out σ ∧
      ∀ i j, i < j → j < ra.length / 5 → ∀ x y, out[5 * i + col]? = some x → out[5 * j + col]? = some y → Arith.lt y x = false := by
  obtain ⟨P, out, _, ho, hR, hP, hpw⟩ := hpsortArr_spec srt ra hcol hsort
  refine ⟨out, _, ho, hR, ?_⟩
  obtain ⟨hperm, hlen, hrow, _⟩ := hR
  have hPl : P.length = ra.length / 5 := by have := hperm.length_eq; simpa using this
  have key : ∀ i (h : i < P.length), out[5 * i + col]? = some P[i].1 := by
    intro i h
    rw [hrow i (by omega) col hcol]
    have : (P.map Prod.snd).getD i 0 = P[i].2 := by simp [List.getD, h]
    rw [this]
    exact (hP _ (List.getElem_mem h)).1
  intro i j hij hj x y hx hy
  rw [key i (by omega)] at hx
  rw [key j (by omega)] at hy
  injection hx with hx
  injection hy with hy
  rw [← hx, ← hy]
  exact List.pairwise_iff_getElem.mp hpw i j (by omega) (by omega) hij

/-- **C37** A column outside `0…4` is rejected; the three wrappers sort by colatitude, signal and time. -/
theorem C37_columns (srt : List (F × Nat) → List (F × Nat)) (ra : List F) :
    (∀ col : Int, col < 0 ∨ 4 < col → hpsortArr srt ra col = throw "Sort column must be between 0 and 4.") ∧
    hpsortArrTheta srt ra = hpsortArr srt ra 1 ∧ hpsortArrTOD srt ra = hpsortArr srt ra 3 ∧ hpsortArrTime srt ra = hpsortArr srt ra 4 :=
  ⟨fun col h => by unfold hpsortArr; rw [if_pos h], rfl, rfl, rfl⟩

theorem flat_get (rows : List (Row F)) (i : Nat) : ∀ c < 5, (flat rows)[5 * i + c]? = (rows[i]?).bind (fun r => r.toList[c]?) := by
  induction rows generalizing i with
  | nil => intro c _; simp [flat]
  | cons r rows ih =>
    intro c hc
    have e : flat (r :: rows) = r.toList ++ flat rows := by simp [flat]
    rw [e]
    cases i with
    | zero =>
      rw [List.getElem?_append_left (by simp [Row.toList]; omega)]
      simp
    | succ i =>
      rw [List.getElem?_append_right (by simp [Row.toList]; omega)]
      have : 5 * (i + 1) + c - r.toList.length = 5 * i + c := by simp [Row.toList]; omega
      rw [this, ih i c hc]; simp

/-- **C37** The row-wise model of the sort used for `convolve` is what the code does on the flat buffer. -/
theorem C37_rowwise (srt : List (F × Nat) → List (F × Nat)) (rows : List (Row F)) (hsort : Sorts srt (flat rows)) :
    ∃ ys, hpsortTheta srt rows = ok ys ∧ hpsortArrTheta srt (flat rows) = ok (flat ys) := by
  have hn : (flat rows).length / 5 = rows.length := by rw [flat_length]; omega
  obtain ⟨P, out, hPd, ho, hR, hP, hpw⟩ := hpsortArr_spec srt (flat rows) (col := 1) (by norm_num) hsort
  rw [hn] at hPd hR hP
  have hkeys : (List.range rows.length).map (fun i => ((flat rows).getD (5 * i + 1) (Arith.ofInt 0), i)) =
      rows.zipIdx.map (fun p => (p.1.theta, p.2)) := by
    apply List.ext_getElem (by simp)
    intro i h1 h2
    have hi : i < rows.length := by simpa using h1
    simp only [List.getElem_map, List.getElem_range, List.getElem_zipIdx, Nat.zero_add]
    congr 1
    simp only [List.getD]
    rw [flat_get rows i 1 (by norm_num), List.getElem?_eq_getElem hi]
    simp [Row.toList]
  rw [hkeys] at hPd
  have hrowsP : ∀ p ∈ P, ∃ (h : p.2 < rows.length), rows[p.2].theta = p.1 := by
    intro p hp
    obtain ⟨h1, h2⟩ := hP p hp
    refine ⟨h2, ?_⟩
    rw [flat_get rows p.2 1 (by norm_num), List.getElem?_eq_getElem h2] at h1
    simpa [Row.toList] using h1
  let dflt : Row F := ⟨Arith.ofInt 0, Arith.ofInt 0, Arith.ofInt 0, Arith.ofInt 0, Arith.ofInt 0⟩
  refine ⟨P.map (fun p => rows.getD p.2 dflt), ?_, ?_⟩
  · unfold hpsortTheta
    rw [← hPd]
    apply mapM_ok
    intro p hp
    obtain ⟨h1, h2⟩ := hrowsP p hp
    rw [rd_nat h1, ok_bind]
    congr 1
    rw [← h2]
    simp [List.getD, h1]
  · unfold hpsortArrTheta
    have ho' : hpsortArr srt (flat rows) 1 = ok out := ho
    rw [ho']
    congr 1
    obtain ⟨hperm, hlen, hrow, htail⟩ := hR
    have hPl : P.length = rows.length := by have := hperm.length_eq; simpa using this
    apply List.ext_getElem?
    intro k
    by_cases hk : k / 5 < rows.length
    · have e : k = 5 * (k / 5) + k % 5 := by omega
      have hc : k % 5 < 5 := by omega
      generalize k / 5 = i at *
      generalize k % 5 = c at *
      subst e
      have hiP : i < P.length := by omega
      rw [hrow i hk c hc, flat_get rows _ c hc, flat_get _ i c hc]
      obtain ⟨h1, _⟩ := hrowsP _ (List.getElem_mem hiP)
      have : (P.map Prod.snd).getD i 0 = P[i].2 := by simp [List.getD, hiP]
      rw [this, List.getElem?_eq_getElem h1]
      simp [List.getD, hiP, h1]
    · rw [List.getElem?_eq_none (by rw [hlen, flat_length]; omega), List.getElem?_eq_none (by rw [flat_length]; simp; omega)]

/-- Effect of sorting two columns. -/
theorem pairs_spec (srt : List (F × Nat) → List (F × Nat)) (ra : List F) (hsort : Sorts srt ra) :
    ∃ P, P = srt ((List.range ra.length).map (fun i => (ra.getD (1 * i + 0) (Arith.ofInt 0), i))) ∧
      (P.map Prod.snd).Perm (List.range ra.length) ∧ (∀ p ∈ P, ra[p.2]? = some p.1) ∧ P.Pairwise (fun p q => Arith.lt q.1 p.1 = false) := by
  set L := (List.range ra.length).map (fun i => (ra.getD (1 * i + 0) (Arith.ofInt 0), i)) with hL
  have hL1 : ∀ p ∈ L, ra[p.2]? = some p.1 := by
    intro p hp
    obtain ⟨i, hi, rfl⟩ := List.mem_map.mp hp
    rw [List.mem_range] at hi
    simp [List.getD, hi]
  obtain ⟨hperm, hpw⟩ := hsort L (fun p hp => List.mem_of_getElem? (hL1 p hp))
  refine ⟨_, rfl, ?_, fun p hp => hL1 p (hperm.mem_iff.mp hp), hpw⟩
  refine (hperm.map Prod.snd).trans (List.Perm.of_eq ?_)
  rw [hL, List.map_map]; simp [Function.comp_def]

/-- Key array `ra` and companion array `brr` reordered together, keys non-decreasing. -/
def PairSorted {β : Type} (ra : List F) (brr : List β) (ra' : List F) (brr' : List β) : Prop :=
  (ra'.zip brr').Perm (ra.zip brr) ∧ ra'.length = ra.length ∧ brr'.length = ra.length ∧ ra'.Pairwise (fun x y => Arith.lt y x = false)

theorem pairSorted_of {β : Type} {ra : List F} {brr : List β} (hl : ra.length = brr.length) {P : List (F × Nat)}
    (hperm : (P.map Prod.snd).Perm (List.range ra.length)) (hP : ∀ p ∈ P, ra[p.2]? = some p.1)
    (hpw : P.Pairwise (fun p q => Arith.lt q.1 p.1 = false)) (d : β) :
    PairSorted ra brr (P.map Prod.fst) (P.map (fun p => brr.getD p.2 d)) := by
  have hlt : ∀ p ∈ P, p.2 < ra.length := fun p hp => (List.getElem?_eq_some_iff.mp (hP p hp)).1
  refine ⟨?_, ?_, ?_, by rw [List.pairwise_map]; exact hpw⟩
  · have h1 : (P.map Prod.fst).zip (P.map (fun p => brr.getD p.2 d)) =
        (P.map Prod.snd).map (fun i => (ra.getD i (Arith.ofInt 0), brr.getD i d)) := by
      rw [List.zip_map', List.map_map]
      apply List.map_congr_left
      intro p hp
      have := hP p hp
      simp [List.getD, this]
    rw [h1]
    refine (hperm.map _).trans (List.Perm.of_eq ?_)
    apply List.ext_getElem (by simp [hl])
    intro i h2 h3
    have hi : i < ra.length := by simpa using h2
    simp [List.getD, hi, show i < brr.length by omega]
  · have := hperm.length_eq; simpa using this
  · have := hperm.length_eq; simpa using this

theorem getD_pairs {P : List (F × Nat)} {n : Nat} (h : P.length = n) {γ : Type} (g : F × Nat → γ) (d : F × Nat) :
    (List.range n).map (fun i => g (P.getD i d)) = P.map g := by
  apply List.ext_getElem (by simp [h])
  intro i h1 h2
  have : i < P.length := by simpa using h2
  simp [List.getD, this]

/-- **C37** `hpsort_DL`: arrays of different lengths are rejected; otherwise both arrays are reordered together and the first is
non-decreasing. -/
theorem C37_DL {β : Type} (zero : β) (srt : List (F × Nat) → List (F × Nat)) (ra : List F) (brr : List β) :
    (ra.length ≠ brr.length → hpsortDL zero srt ra brr = throw "Incompatible dimensions") ∧
    (ra.length = brr.length → Sorts srt ra → ∃ ra' brr', hpsortDL zero srt ra brr = ok (ra', brr') ∧ PairSorted ra brr ra' brr') := by
  refine ⟨fun h => by unfold hpsortDL; rw [if_pos h], fun hl hsort => ?_⟩
  obtain ⟨P, hPd, hperm, hP, hpw⟩ := pairs_spec srt ra hsort
  have hPl : P.length = ra.length := by have := hperm.length_eq; simpa using this
  have hlt : ∀ p ∈ P, p.2 < brr.length := fun p hp => by have := (List.getElem?_eq_some_iff.mp (hP p hp)).1; omega
  let d : F × Nat := (Arith.ofInt 0, 0)
  have hpr : ∀ i < ra.length, rd P (i : Int) = ok (P.getD i d) := by
    intro i hi
    rw [rd_nat (by omega)]; simp [List.getD, show i < P.length by omega]
  have hmem : ∀ i < ra.length, P.getD i d ∈ P := by
    intro i hi
    simp [List.getD, show i < P.length by omega]
  refine ⟨_, _, ?_, pairSorted_of hl hperm hP hpw zero⟩
  unfold hpsortDL
  rw [if_neg (by omega)]
  simp only
  rw [keyPairs_ok ra _ 1 0 (by intro i hi; omega), ok_bind, ← hPd]
  have f1 := fillLoop (n := ra.length) (fun i => rd P (i : Int) >>= fun p => ok p.1) (fun i => (P.getD i d).1) ra rfl
    (by intro i hi; rw [hpr i hi, ok_bind])
  have f2 := fillLoop (n := ra.length) (fun i => rd P (i : Int) >>= fun p => rd brr (p.2 : Int)) (fun i => brr.getD (P.getD i d).2 zero)
    (List.replicate ra.length zero) (by simp) (by
      intro i hi
      have := hlt _ (hmem i hi)
      rw [hpr i hi, ok_bind, rd_nat this]
      simp only [List.getD] at this ⊢
      rw [List.getElem?_eq_getElem this]; rfl)
  set temp := (List.range ra.length).map (fun i => brr.getD (P.getD i d).2 zero) with htemp
  have f3 := fillLoop (n := ra.length) (fun i => rd temp (i : Int)) (fun i => brr.getD (P.getD i d).2 zero) brr hl.symm (by
      intro i hi
      rw [rd_nat (by simp [htemp, hi])]; simp [htemp])
  have e1 : (fun (i : Nat) (ra : List F) => (rd P (i : Int) >>= fun p => ok p.1) >>= fun x => wr ra (i : Int) x) =
      (fun (i : Nat) (ra : List F) => rd P (i : Int) >>= fun p => wr ra (i : Int) p.1) := by
    funext i ra; cases rd P (i : Int) <;> rfl
  have e2 : (fun (i : Nat) (temp : List β) => (rd P (i : Int) >>= fun p => rd brr (p.2 : Int)) >>= fun x => wr temp (i : Int) x) =
      (fun (i : Nat) (temp : List β) => rd P (i : Int) >>= fun p => rd brr (p.2 : Int) >>= fun x => wr temp (i : Int) x) := by
    funext i temp; cases rd P (i : Int) <;> rfl
  rw [e1] at f1
  rw [e2] at f2
  have g1 := getD_pairs hPl Prod.fst d
  have g2 := getD_pairs hPl (fun p => brr.getD p.2 zero) d
  rw [f1]
  show (forN ra.length _ _ >>= fun temp => forN ra.length _ brr >>= fun brr => ok (_, brr)) = _
  rw [f2]
  show (forN ra.length _ brr >>= fun brr => ok (_, brr)) = _
  rw [f3]
  show ok _ = ok _
  rw [g1, g2]

/-- **C37** `hpsort_DDcm`: the same although the key array serves as workspace. -/
theorem C37_DDcm (srt : List (F × Nat) → List (F × Nat)) (ra brr : List F) :
    (ra.length ≠ brr.length → hpsortDDcm srt ra brr = throw "Incompatible dimensions") ∧
    (ra.length = brr.length → Sorts srt ra → ∃ ra' brr', hpsortDDcm srt ra brr = ok (ra', brr') ∧ PairSorted ra brr ra' brr') := by
  refine ⟨fun h => by unfold hpsortDDcm; rw [if_pos h], fun hl hsort => ?_⟩
  obtain ⟨P, hPd, hperm, hP, hpw⟩ := pairs_spec srt ra hsort
  have hPl : P.length = ra.length := by have := hperm.length_eq; simpa using this
  have hlt : ∀ p ∈ P, p.2 < brr.length := fun p hp => by have := (List.getElem?_eq_some_iff.mp (hP p hp)).1; omega
  let d : F × Nat := (Arith.ofInt 0, 0)
  have hpr : ∀ i < ra.length, rd P (i : Int) = ok (P.getD i d) := by
    intro i hi
    rw [rd_nat (by omega)]; simp [List.getD, show i < P.length by omega]
  have hmem : ∀ i < ra.length, P.getD i d ∈ P := by
    intro i hi
    simp [List.getD, show i < P.length by omega]
  refine ⟨_, _, ?_, pairSorted_of hl hperm hP hpw (Arith.ofInt 0)⟩
  unfold hpsortDDcm
  rw [if_neg (by omega)]
  simp only
  rw [keyPairs_ok ra _ 1 0 (by intro i hi; omega), ok_bind, ← hPd]
  have f1 := fillLoop (n := ra.length) (fun i => rd P (i : Int) >>= fun p => rd brr (p.2 : Int)) (fun i => brr.getD (P.getD i d).2 (Arith.ofInt 0))
    ra rfl (by
      intro i hi
      have := hlt _ (hmem i hi)
      rw [hpr i hi, ok_bind, rd_nat this]
      simp only [List.getD] at this ⊢
      rw [List.getElem?_eq_getElem this]; rfl)
  set temp := (List.range ra.length).map (fun i => brr.getD (P.getD i d).2 (Arith.ofInt 0)) with htemp
  have f2 := fillLoop (n := ra.length) (fun i => rd temp (i : Int)) (fun i => brr.getD (P.getD i d).2 (Arith.ofInt 0)) brr hl.symm (by
      intro i hi
      rw [rd_nat (by simp [htemp, hi])]; simp [htemp])
  have f3 := fillLoop (n := ra.length) (fun i => rd P (i : Int) >>= fun p => ok p.1) (fun i => (P.getD i d).1) temp (by simp [htemp])
    (by intro i hi; rw [hpr i hi, ok_bind])
  have e1 : (fun (i : Nat) (ra : List F) => (rd P (i : Int) >>= fun p => rd brr (p.2 : Int)) >>= fun x => wr ra (i : Int) x) =
      (fun (i : Nat) (ra : List F) => rd P (i : Int) >>= fun p => rd brr (p.2 : Int) >>= fun x => wr ra (i : Int) x) := by
    funext i ra; cases rd P (i : Int) <;> rfl
  have e3 : (fun (i : Nat) (ra : List F) => (rd P (i : Int) >>= fun p => ok p.1) >>= fun x => wr ra (i : Int) x) =
      (fun (i : Nat) (ra : List F) => rd P (i : Int) >>= fun p => wr ra (i : Int) p.1) := by
    funext i ra; cases rd P (i : Int) <;> rfl
  rw [e1] at f1
  rw [e3] at f3
  have g1 := getD_pairs hPl Prod.fst d
  have g2 := getD_pairs hPl (fun p => brr.getD p.2 (Arith.ofInt 0)) d
  rw [f1]
  show (forN ra.length _ brr >>= fun brr => forN ra.length _ temp >>= fun ra => ok (ra, brr)) = _
  rw [f2]
  show (forN ra.length _ temp >>= fun ra => ok (ra, _)) = _
  rw [f3]
  show ok _ = ok _
  rw [g1, g2]

/-! ## Concrete buffers -/

/-- The merge sort of the demonstration job sorts pairs of reals. -/
theorem demo_sorts (keys : List ℝ) : Sorts demoEnv.srt keys := fun l _ =>
  ⟨(demoEnv_ok.sort l).1, (demoEnv_ok.sort l).2.imp (fun h => (RealArith.lt_false _ _).mpr h)⟩

/-- Two rows and a stray element: for every sort the result is forced. -/
example (srt : List (ℝ × ℕ) → List (ℝ × ℕ)) (h : Sorts srt [10, 2, 11, 12, 13, 20, 1, 21, 22, 23, 99]) :
    hpsortArr srt [10, 2, 11, 12, 13, 20, 1, 21, 22, 23, 99] 1 = ok [20, 1, 21, 22, 23, 10, 2, 11, 12, 13, 99] := by
  obtain ⟨out, σ, ho, ⟨hp, hl, hr, ht⟩, hk⟩ := C37_buffer_sorted srt _ (col := 1) (by norm_num) h
  have hσ : σ = [0, 1] ∨ σ = [1, 0] := by
    have h2 : σ.length = 2 := hp.length_eq
    have hn : σ.Nodup := hp.nodup_iff.mpr List.nodup_range
    have hm : ∀ x ∈ σ, x < 2 := fun x hx => List.mem_range.mp (hp.mem_iff.mp hx)
    match σ, h2 with
    | [a, b], _ =>
      have ha := hm a (by simp)
      have hb := hm b (by simp)
      have hab : a ≠ b := by intro h; subst h; simp at hn
      rcases (by omega : (a = 0 ∧ b = 1) ∨ (a = 1 ∧ b = 0)) with ⟨rfl, rfl⟩ | ⟨rfl, rfl⟩ <;> simp
  have ho' : hpsortArr srt [10, 2, 11, 12, 13, 20, 1, 21, 22, 23, 99] 1 = ok out := ho
  rw [ho']
  congr 1
  simp only [List.length_cons, List.length_nil] at hl hr ht hk
  rcases hσ with rfl | rfl
  · exfalso
    have := hk 0 1 (by norm_num) (by norm_num) 2 1 (by rw [hr 0 (by norm_num) 1 (by norm_num)]; rfl)
      (by rw [hr 1 (by norm_num) 1 (by norm_num)]; rfl)
    rw [RealArith.lt_false] at this
    norm_num at this
  · apply List.ext_getElem?
    intro k
    by_cases h10 : 10 ≤ k
    · rw [ht k (by omega)]
      by_cases h11 : k = 10
      · subst h11; rfl
      · rw [List.getElem?_eq_none (by simp; omega), List.getElem?_eq_none (by simp; omega)]
    · have h4 := hr (k / 5) (by omega) (k % 5) (by omega)
      rw [show 5 * (k / 5) + k % 5 = k by omega] at h4
      rw [h4]
      have : k < 10 := by omega
      interval_cases k <;> rfl

/-- `hpsort_DL` and `hpsort_DDcm` on arrays of the same length. -/
example : ∃ ra' brr', hpsortDL (0 : ℤ) demoEnv.srt [3, 1, 2] [30, 10, 20] = ok (ra', brr') ∧ PairSorted [3, 1, 2] [30, 10, 20] ra' brr' :=
  (C37_DL 0 demoEnv.srt [3, 1, 2] [30, 10, 20]).2 rfl (demo_sorts _)

example : ∃ ra' brr', hpsortDDcm demoEnv.srt [3, 1, 2] [30, 10, 20] = ok (ra', brr') ∧ PairSorted [3, 1, 2] [30, 10, 20] ra' brr' :=
  (C37_DDcm demoEnv.srt [3, 1, 2] [30, 10, 20]).2 rfl (demo_sorts _)

end Verif.Tod
