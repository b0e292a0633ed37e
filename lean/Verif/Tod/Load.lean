import Verif.Tod.Bounds

/-!
# Which rank gets a sample, and how many samples a rank gets (C52, C53)

`fillingBetaSeg`, `ratiobetacalcgreatercm`, `ratiobetacalcsmallercm` (src/conviqt_math.cpp:328-396) on the table of
`distribute_colatitudes` (:268-325), exact arithmetic.
-/

namespace Verif.Tod
open Verif Res RealArith Spmd

theorem foldGe_min (t : ℝ) : foldGe t = min t (Real.pi - t) := by
  unfold foldGe
  by_cases h : Real.pi / 2 ≤ t
  · rw [if_pos (by rw [le_iff]; exact h), sub_def, min_eq_right (by simp; linarith)]; rfl
  · rw [if_neg (by rw [le_iff]; exact h), min_eq_left (by push Not at h; linarith)]

theorem foldGt_min (t : ℝ) : foldGt t = min t (Real.pi - t) := by
  rw [foldGt_real]
  split
  · rw [min_eq_right (by linarith)]
  · rw [min_eq_left (by linarith)]

/-- The boundaries around rank `d`: the folded colatitude lies between them. -/
def Between (bounds : List ℝ) (d : ℕ) (t : ℝ) : Prop :=
  (∀ x, bounds[d]? = some x → x ≤ t) ∧ (∀ x, bounds[d + 1]? = some x → t ≤ x)

theorem searchUp_between {bounds : List ℝ} {t : ℝ} : ∀ (k c : ℕ) {c' : ℕ}, c + k + 1 = bounds.length →
    (∀ x, bounds[c]? = some x → x ≤ t) → searchUp bounds t k c = ok c' → Between bounds c' t := by
  intro k
  induction k with
  | zero =>
    intro c c' hl hx h
    unfold searchUp at h
    cases h
    exact ⟨hx, fun x hx => by rw [List.getElem?_eq_none (by omega)] at hx; cases hx⟩
  | succ k ih =>
    intro c c' hl hx h
    unfold searchUp at h
    rw [rd_nat (show c + 1 < bounds.length by omega)] at h
    simp only [ok_bind] at h
    split at h
    · rename_i hlt
      cases h
      rw [lt_iff] at hlt
      refine ⟨hx, fun x hx => ?_⟩
      rw [List.getElem?_eq_getElem (by omega)] at hx
      cases hx; exact hlt.le
    · rename_i hlt
      rw [lt_iff, not_lt] at hlt
      exact ih (c + 1) (by omega) (fun x hx => by
        rw [List.getElem?_eq_getElem (by omega)] at hx; cases hx; exact hlt) h

theorem searchDown_between {bounds : List ℝ} {t : ℝ} (h0 : ∀ x, bounds[0]? = some x → x ≤ t) : ∀ (c : ℕ) {c' : ℕ},
    c < bounds.length → (∀ x, bounds[c]? = some x → t ≤ x ∨ Between bounds c t) → (∀ x, bounds[c + 1]? = some x → t ≤ x) →
    searchDown bounds t c = ok c' → Between bounds c' t := by
  intro c
  induction c with
  | zero =>
    intro c' _ _ hx h
    unfold searchDown at h
    cases h
    exact ⟨h0, hx⟩
  | succ c ih =>
    intro c' hl hc hx h
    unfold searchDown at h
    rw [rd_nat hl] at h
    simp only [ok_bind] at h
    split at h
    · rename_i hlt
      cases h
      rw [lt_iff] at hlt
      refine ⟨fun x hx' => ?_, hx⟩
      rw [List.getElem?_eq_getElem hl] at hx'
      cases hx'; exact hlt.le
    · rename_i hlt
      rw [lt_iff, not_lt] at hlt
      have hle : ∀ x, bounds[c + 1]? = some x → t ≤ x := by
        intro x hx'; rw [List.getElem?_eq_getElem hl] at hx'; cases hx'; exact hlt
      refine ih (by omega) (fun x hx' => ?_) hle h
      by_cases hxt : t ≤ x
      · exact Or.inl hxt
      · exact Or.inr ⟨fun y hy => by rw [hx'] at hy; cases hy; linarith, hle⟩

/-- **C52** Whatever rank the search starts from, it ends, for every colatitude in `[0,pi]`, at a rank whose range of colatitudes
contains the colatitude folded into the northern hemisphere: so a sample, its mirror image and all samples with colatitudes in
between two boundaries go to the rank of that interval. -/
theorem C52_owner_interval {cores : ℕ} {bounds : List ℝ} (hb : bounds.length = cores) (hs : bounds.Pairwise (· ≤ ·))
    (h0 : bounds.head? = some 0) {c : ℕ} (hc : c < cores) {theta : ℝ} (ht : 0 ≤ theta ∧ theta ≤ Real.pi) :
    ∃ d, ownerStep cores bounds c theta = ok d ∧ d < cores ∧
      (∀ x, bounds[d]? = some x → x ≤ min theta (Real.pi - theta)) ∧
      (∀ x, bounds[d + 1]? = some x → min theta (Real.pi - theta) ≤ x) := by
  obtain ⟨d, h1, h2⟩ := ownerStep_ok hb hc theta
  refine ⟨d, h1, h2, ?_⟩
  unfold ownerStep at h1
  rw [rd_nat (show c < bounds.length by omega)] at h1
  simp only [ok_bind, foldGe_min] at h1
  have hnn : 0 ≤ min theta (Real.pi - theta) := le_min ht.1 (by linarith [ht.2])
  split at h1
  · rename_i hle
    rw [le_iff] at hle
    exact searchUp_between _ _ (by omega) (fun x hx => by
      rw [List.getElem?_eq_getElem (by omega)] at hx; cases hx; exact hle) h1
  · rename_i hle
    rw [le_iff, not_le] at hle
    refine searchDown_between ?_ _ (by omega) ?_ ?_ h1
    · intro x hx
      rw [← List.head?_eq_getElem?, h0] at hx
      cases hx; exact hnn
    · intro x hx
      rw [List.getElem?_eq_getElem (by omega)] at hx; cases hx; exact Or.inl hle.le
    · intro x hx
      rw [List.getElem?_eq_some_iff] at hx
      obtain ⟨hl, rfl⟩ := hx
      have := List.pairwise_iff_getElem.mp hs c (c + 1) (by omega) hl (by omega)
      linarith

/-- **C52** The rank of a sample does not depend on the samples before it, unless its folded colatitude is exactly one of the
boundaries. -/
theorem C52_owner_unique {cores : ℕ} {bounds : List ℝ} (hb : bounds.length = cores) (hs : bounds.Pairwise (· ≤ ·))
    (h0 : bounds.head? = some 0) {c c' : ℕ} (hc : c < cores) (hc' : c' < cores) {theta theta' : ℝ}
    (ht : 0 ≤ theta ∧ theta ≤ Real.pi) (hm : theta' = theta ∨ theta' = Real.pi - theta)
    (hno : min theta (Real.pi - theta) ∉ bounds) : ownerStep cores bounds c theta = ownerStep cores bounds c' theta' := by
  have hmin : min theta' (Real.pi - theta') = min theta (Real.pi - theta) := by
    rcases hm with rfl | rfl
    · rfl
    · rw [min_comm]; congr 1; ring
  have ht' : 0 ≤ theta' ∧ theta' ≤ Real.pi := by
    rcases hm with rfl | rfl
    · exact ht
    · constructor <;> linarith [ht.1, ht.2]
  obtain ⟨d, h1, h2, h3, h4⟩ := C52_owner_interval hb hs h0 hc ht
  obtain ⟨d', h1', h2', h3', h4'⟩ := C52_owner_interval hb hs h0 hc' ht'
  rw [hmin] at h3' h4'
  rw [h1, h1']
  congr 1
  set t := min theta (Real.pi - theta) with htdef
  have key : ∀ a b : ℕ, a < cores → b < cores → a < b → (∀ x, bounds[a + 1]? = some x → t ≤ x) →
      (∀ x, bounds[b]? = some x → x ≤ t) → False := by
    intro a b ha hb' hab h1 h2
    have e1 := h1 _ (List.getElem?_eq_getElem (by omega : a + 1 < bounds.length))
    have e2 := h2 _ (List.getElem?_eq_getElem (by omega : b < bounds.length))
    have e3 : bounds[a + 1] ≤ bounds[b]'(by omega) := by
      rcases Nat.lt_or_ge (a + 1) b with h | h
      · exact List.pairwise_iff_getElem.mp hs (a + 1) b (by omega) (by omega) h
      · have : a + 1 = b := by omega
        subst this; exact le_rfl
    have : t = bounds[a + 1]'(by omega) := le_antisymm e1 (le_trans e3 e2)
    exact hno (this ▸ List.getElem_mem _)
  rcases Nat.lt_trichotomy d d' with h | h | h
  · exact (key d d' h2 h2' h h4 h3').elim
  · exact h
  · exact (key d' d h2' h2 h h4' h3).elim

/-! ## load -/

/-- What the scan of the histogram consumes. -/
theorem findBin_sum {hits : List ℤ} {M : ℤ} (hM : ∀ x ∈ hits, 0 ≤ x ∧ x ≤ M) {target : ℝ} :
    ∀ (k p : Nat) (bh left : ℤ) {i' l' : ℤ}, k + p = hits.length + 1 → p ≤ hits.length →
      (hits.drop p).sum = left → (bh : ℝ) ≤ target →
      findBin hits target k ((p : ℤ) - 1) bh left = ok (i', l') →
      ∃ q : ℕ, i' = q ∧ p ≤ q ∧ q < hits.length ∧ (hits.drop (q + 1)).sum = l' ∧
        target ≤ bh + left - l' ∧ (bh : ℝ) + left - l' ≤ target + M := by
  intro k
  induction k with
  | zero => intro p _ _ _ _ h1 h2; omega
  | succ k ih =>
    intro p bh left i' l' hk hp hs h1 h
    rw [findBin, show ((p : ℤ) - 1 + 1) = (p : ℤ) by ring] at h
    rw [bind_eq_ok] at h
    obtain ⟨x, hx, h⟩ := h
    rw [rd_eq_ok] at hx
    have hp' : p < hits.length := by
      have := (List.getElem?_eq_some_iff.mp hx.2).1; simpa using this
    have hxv : x = hits[p] := by
      have := hx.2; simp at this; rw [List.getElem?_eq_getElem hp'] at this; exact (Option.some.inj this).symm
    subst hxv
    rw [List.drop_eq_getElem_cons hp', List.sum_cons] at hs
    have hb := hM _ (List.getElem_mem hp')
    split at h
    · simp only at h
      split at h
      · rename_i ht
        rw [le_iff, ofInt_def] at ht
        injection h with h; injection h with e1 e2
        subst e1; subst e2
        refine ⟨p, rfl, le_rfl, hp', by omega, ?_, ?_⟩
        · push_cast at ht ⊢; linarith
        · push_cast
          have : (hits[p] : ℝ) ≤ M := by exact_mod_cast hb.2
          linarith
      · rename_i ht
        rw [le_iff, ofInt_def, not_le] at ht
        obtain ⟨q, a1, a2, a3, a4, a5, a6⟩ := ih (p + 1) (bh + hits[p]) (left - hits[p]) (by omega) (by omega) (by omega) ht.le
          (by rw [← h]; congr 1; push_cast; ring)
        refine ⟨q, a1, by omega, a3, a4, ?_, ?_⟩
        · push_cast at a5; linarith
        · push_cast at a6; linarith
    · rename_i hx0
      rw [not_not] at hx0
      obtain ⟨q, a1, a2, a3, a4, a5, a6⟩ := ih (p + 1) bh left (by omega) (by omega) (by omega) h1
          (by rw [← h]; congr 1; push_cast; ring)
      exact ⟨q, a1, by omega, a3, a4, a5, a6⟩

/-- Bins of the boundaries: the first rank starts at bin 0; between two consecutive boundaries there are at most the mean number of
samples and two bins more. -/
theorem boundTable_load {nbin n : ℕ} (hn : 1 ≤ n) {hits : List ℤ} (hl : hits.length = nbin) {M : ℤ} (hM0 : 0 ≤ M)
    (hM : ∀ x ∈ hits, 0 ≤ x ∧ x ≤ M) {b : List ℝ} (h : boundTable nbin n hits hits.sum = ok b) :
    ∃ s : ℕ → ℕ, s 0 = 0 ∧ b = (List.range n).map (fun d => (s d : ℝ) * (wbin nbin : ℝ)) ∧
      (∀ d, d + 1 < n → s (d + 1) < nbin ∧
        (((hits.drop (s d)).sum - (hits.drop (s (d + 1) + 1)).sum : ℤ) : ℝ) ≤ hits.sum / n + 2 * M) ∧
      (((hits.drop (s (n - 1))).sum : ℤ) : ℝ) ≤ hits.sum / n + 2 * M := by
  unfold boundTable at h
  rw [bind_eq_ok] at h
  obtain ⟨t, ht, h⟩ := h
  injection h with h
  subst h
  have hn0 : (0 : ℝ) < n := by exact_mod_cast hn
  have hMr : (0 : ℝ) ≤ M := by exact_mod_cast hM0
  set T : ℝ := hits.sum / n with hT
  have hTn : T * n = hits.sum := by rw [hT, div_mul_cancel₀ _ hn0.ne']
  have hdrop : ∀ p, 0 ≤ (hits.drop p).sum := fun p =>
    List.sum_nonneg (fun x hx => (hM x (List.mem_of_mem_drop hx)).1)
  have hstep : ∀ p, (hits.drop p).sum - (hits.drop (p + 1)).sum ≤ M := by
    intro p
    by_cases hp : p < hits.length
    · rw [List.drop_eq_getElem_cons hp, List.sum_cons]
      have := (hM _ (List.getElem_mem hp)).2
      omega
    · rw [List.drop_eq_nil_of_le (by omega), List.drop_eq_nil_of_le (by omega)]; simpa using hM0
  have := forN_ok_inv (n - 1) (boundStep nbin n hits) _ t (fun k (st : ℤ × ℤ × List ℝ) =>
    ∃ s : ℕ → ℕ, s 0 = 0 ∧ st.2.2 = (List.range (k + 1)).map (fun d => (s d : ℝ) * (wbin nbin : ℝ)) ∧
      (∀ d, d + 1 ≤ k → s (d + 1) < nbin ∧
        (((hits.drop (s d)).sum - (hits.drop (s (d + 1) + 1)).sum : ℤ) : ℝ) ≤ T + 2 * M) ∧
      ∃ p : ℕ, st.1 = (p : ℤ) - 1 ∧ p ≤ nbin ∧ (p = s k ∨ p = s k + 1) ∧
      st.2.1 = (hits.drop p).sum ∧ (st.2.1 : ℝ) ≤ T * (n - k))
    ?_ ?_ ht
  · obtain ⟨s, h1, h2, h3, p, h4, h5, h6, h7, h8⟩ := this
    refine ⟨s, h1, ?_, fun d hd => h3 d (by omega), ?_⟩
    · rw [h2, show n - 1 + 1 = n by omega]
    · have hc : ((n - 1 : ℕ) : ℝ) = n - 1 := by rw [Nat.cast_sub hn]; simp
      rw [h7, hc] at h8
      rcases h6 with rfl | rfl
      · linarith
      · have := hstep (s (n - 1))
        have : (((hits.drop (s (n - 1))).sum : ℤ) : ℝ) - ((hits.drop (s (n - 1) + 1)).sum : ℤ) ≤ M := by exact_mod_cast this
        linarith
  · refine ⟨fun _ => 0, rfl, by simp, by omega, 0, by simp, by omega, by simp, by simp, ?_⟩
    simp [hTn]
  · rintro k st st' hk ⟨s, h1, h2, h3, p, h4, h5, h6, h7, h8⟩ hs
    have hd : (2 : ℝ) ≤ (n : ℝ) - k := by
      have : (k : ℝ) + 2 ≤ n := by exact_mod_cast (by omega : k + 2 ≤ n)
      linarith
    unfold boundStep at hs
    simp only at hs
    rw [bind_eq_ok] at hs
    obtain ⟨⟨i', l'⟩, hf, hs⟩ := hs
    injection hs with hs
    subst hs
    have hdiv : (Arith.ofInt ((n : ℤ) - ((k : ℤ) + 1) + 1) : ℝ) = (n : ℝ) - k := by
      simp; ring
    rw [hdiv, h4] at hf
    simp only [div_def, ofInt_def] at hf
    have hleft : (0 : ℝ) ≤ st.2.1 := by rw [h7]; exact_mod_cast hdrop p
    obtain ⟨q, a1, a2, a3, a4, a5, a6⟩ := findBin_sum hM _ p 0 st.2.1 (by omega) (by omega) h7.symm
      (by have : (0 : ℝ) < (n : ℝ) - k := by linarith
          simp; positivity) hf
    subst a1
    have htgt : (st.2.1 : ℝ) / ((n : ℝ) - k) ≤ T := by
      rw [div_le_iff₀ (by linarith)]; exact h8
    refine ⟨fun d => if d ≤ k then s d else q, by simp [h1], ?_, ?_, q + 1, by simp, by omega, Or.inr (by simp), a4.symm, ?_⟩
    · dsimp only
      rw [h2, List.range_succ (n := k + 1), List.map_append]
      congr 1
      · apply List.map_congr_left
        intro d hd; rw [List.mem_range] at hd; rw [if_pos (by omega)]
      · simp
    · intro d hd'
      dsimp only
      by_cases hdk : d + 1 ≤ k
      · rw [if_pos hdk, if_pos (show d ≤ k by omega)]; exact h3 d hdk
      · have : d = k := by omega
        subst this
        rw [if_neg (show ¬d + 1 ≤ d by omega), if_pos (le_refl d)]
        refine ⟨by omega, ?_⟩
        rw [Int.cast_zero, zero_add] at a6
        rw [Int.cast_sub, a4]
        have hbin : (((hits.drop (s d)).sum : ℤ) : ℝ) - ((hits.drop p).sum : ℤ) ≤ M := by
          rcases h6 with rfl | rfl
          · simpa using hMr
          · exact_mod_cast hstep (s d)
        rw [h7] at a6 htgt
        linarith
    · dsimp only
      push_cast at a5 ⊢
      have e : (st.2.1 : ℝ) = (st.2.1 : ℝ) / ((n : ℝ) - k) * ((n : ℝ) - k) := by
        rw [div_mul_cancel₀]; linarith
      set g := (st.2.1 : ℝ) / ((n : ℝ) - k)
      nlinarith

theorem drop_sum_count {nbin : ℕ} (rows : List (Row ℝ)) (a : ℕ)
    (h : ∀ y ∈ rows, 0 ≤ binOf nbin y.theta ∧ binOf nbin y.theta < nbin) :
    (((List.range nbin).map (fun j : ℕ => ((rows.countP (fun y => decide (binOf nbin y.theta = (j : ℤ))) : ℕ) : ℤ))).drop a).sum
      = ((rows.countP (fun y => decide ((a : ℤ) ≤ binOf nbin y.theta)) : ℕ) : ℤ) := by
  induction rows with
  | nil => simp
  | cons r rows ih =>
    have h1 := ih (fun y hy => h y (by simp [hy]))
    obtain ⟨b0, b1⟩ := h r (by simp)
    have e : ∀ j : ℕ, (((r :: rows).countP (fun y => decide (binOf nbin y.theta = (j : ℤ))) : ℕ) : ℤ) =
        (((rows.countP (fun y => decide (binOf nbin y.theta = (j : ℤ))) : ℕ) : ℤ)) +
          if binOf nbin r.theta = (j : ℤ) then 1 else 0 := by
      intro j
      rw [List.countP_cons]
      by_cases hj : binOf nbin r.theta = (j : ℤ) <;> simp [hj]
    simp only [e]
    rw [← List.map_drop] at h1 ⊢
    rw [List.sum_map_add, h1, List.countP_cons]
    have : (((List.range nbin).drop a).map (fun j : ℕ => if binOf nbin r.theta = (j : ℤ) then (1 : ℤ) else 0)).sum =
        if (a : ℤ) ≤ binOf nbin r.theta then 1 else 0 := by
      obtain ⟨k, hk⟩ : ∃ k : ℕ, binOf nbin r.theta = k := ⟨(binOf nbin r.theta).toNat, by omega⟩
      rw [hk] at b1 ⊢
      have e2 : ∀ m : ℕ, ((List.range m).map (fun j : ℕ => if ((k : ℕ) : ℤ) = (j : ℤ) then (1 : ℤ) else 0)).sum = if k < m then 1 else 0 := by
        intro m
        rw [← sum_indicator k m]
        congr 1
        apply List.map_congr_left
        intro j _
        by_cases hj : j = k
        · rw [if_pos hj, if_pos (by omega)]
        · rw [if_neg hj, if_neg (by omega)]
      have e3 := e2 nbin
      by_cases hab : a ≤ nbin
      · have hsplit : List.range nbin = List.range a ++ (List.range nbin).drop a := by
          conv_lhs => rw [← List.take_append_drop a (List.range nbin)]
          rw [List.take_range, Nat.min_eq_left hab]
        rw [hsplit, List.map_append, List.sum_append, e2 a] at e3
        rw [if_pos (show k < nbin by omega)] at e3
        split_ifs at e3 ⊢ <;> omega
      · rw [List.drop_eq_nil_of_le (by simp; omega), if_neg (by omega)]; simp
    rw [this]
    by_cases ha : (a : ℤ) ≤ binOf nbin r.theta <;> simp [ha]

theorem bucket_between {cores : ℕ} {bounds : List ℝ} (hb : bounds.length = cores) (hs : bounds.Pairwise (· ≤ ·))
    (h0 : bounds.head? = some 0) {rows : List (Row ℝ)} (hr : ∀ y ∈ rows, 0 ≤ y.theta ∧ y.theta ≤ Real.pi) (d : ℕ) :
    ∀ c < cores, (bucket cores bounds c rows d).length ≤
      rows.countP (fun y => @decide (Between bounds d (min y.theta (Real.pi - y.theta))) (Classical.propDecidable _)) := by
  induction rows with
  | nil => intro c _; simp [bucket_nil]
  | cons r rows ih =>
    intro c hc
    obtain ⟨o, h1, h2, h3, h4⟩ := C52_owner_interval hb hs h0 hc (hr r (by simp))
    have ho : own cores bounds c r.theta = o := by unfold own; rw [h1]
    have := ih (fun y hy => hr y (by simp [hy])) o h2
    rw [bucket_cons, ho, List.countP_cons]
    by_cases hod : o = d
    · subst hod
      rw [if_pos rfl, if_pos (by simp only [decide_eq_true_eq]; exact ⟨h3, h4⟩), List.length_cons]
      omega
    · rw [if_neg hod]; omega

/-- **C53** No rank is overloaded: if no bin of the colatitude histogram holds more than `M` of the `N` samples of a job on `n`
ranks, then every rank is sent at most `N/n + 2M` samples (five numbers each). -/
theorem C53_load {e : Env ℝ} {n : ℕ} (hn : 1 ≤ n) {R : ℕ → List (Row ℝ)} {bounds : List ℝ} (hD : Distributed e n R bounds)
    (hnb : 0 < e.nbin) (hlegal : ∀ r < n, ∀ y ∈ R r, 0 ≤ y.theta ∧ y.theta ≤ Real.pi ∧ y.theta ≠ Real.pi / 2)
    {M : ℕ} (hM : ∀ j < e.nbin, binCount e.nbin n R j ≤ M) :
    ∃ counts : ℕ → List ℕ, (∀ r < n, fillingBetaSeg n bounds (R r) = ok (counts r)) ∧
      ∀ d < n, ((((List.range n).map (fun r => (counts r).getD d 0)).sum : ℕ) : ℝ) ≤
        5 * ((samples n R).length / n + 2 * M) := by
  obtain ⟨H, hH, hB⟩ := hD.table
  have hHeq : sumCols ((List.range n).map H) e.nbin = (List.range e.nbin).map (fun j : ℕ => (binCount e.nbin n R j : ℤ)) := by
    rw [← sumCols_count]
    congr 1
    apply List.map_congr_left
    intro r hr
    rw [List.mem_range] at hr
    have h1 := hH r hr
    rw [C43_histogram_partial hnb (R r) (hlegal r hr)] at h1
    exact (Res.ok.inj h1).symm
  rw [hHeq] at hB
  set hits := (List.range e.nbin).map (fun j : ℕ => (binCount e.nbin n R j : ℤ)) with hhits
  have hsamp : ∀ y ∈ samples n R, 0 ≤ y.theta ∧ y.theta ≤ Real.pi ∧ y.theta ≠ Real.pi / 2 := by
    intro y hy
    unfold samples at hy
    obtain ⟨l, hl, hyl⟩ := List.mem_flatten.mp hy
    obtain ⟨r, hr, rfl⟩ := List.mem_map.mp hl
    exact hlegal r (List.mem_range.mp hr) y hyl
  have hbins : ∀ y ∈ samples n R, 0 ≤ binOf e.nbin y.theta ∧ binOf e.nbin y.theta < e.nbin := fun y hy => by
    obtain ⟨a, b, c⟩ := hsamp y hy; exact binOf_range hnb a b c
  have hdrop : ∀ a : ℕ, (hits.drop a).sum = (((samples n R).countP (fun y => decide ((a : ℤ) ≤ binOf e.nbin y.theta)) : ℕ) : ℤ) :=
    fun a => drop_sum_count (samples n R) a hbins
  have hsum : hits.sum = (samples n R).length := sum_binCount _ hbins
  obtain ⟨hblen, hbh, hbs, _⟩ := C43_table_sorted_partial hn (hits := hits) (by simp [hhits]) hB
  rw [← hsum] at hB
  obtain ⟨s, hs0, hbe, hsteps, hlast⟩ := boundTable_load hn (hits := hits) (by simp [hhits]) (M := (M : ℤ)) (by omega) (by
      intro x hx
      obtain ⟨j, hj, rfl⟩ := List.mem_map.mp hx
      have := hM j (List.mem_range.mp hj)
      omega) hB
  refine ⟨fun r => (List.range n).map (fun d => 5 * (bucket n bounds 0 (R r) d).length), fun r _ => fillingBetaSeg_eq hblen (by omega) (R r), ?_⟩
  intro d hd
  have hw := wbin_pos hnb
  -- samples sent to rank d
  have hle : ((List.range n).map (fun r => ((List.range n).map (fun d => 5 * (bucket n bounds 0 (R r) d).length)).getD d 0)).sum ≤
      5 * (samples n R).countP (fun y => @decide (Between bounds d (min y.theta (Real.pi - y.theta))) (Classical.propDecidable _)) := by
    unfold samples
    rw [List.countP_flatten, List.map_map, ← List.sum_map_mul_left]
    apply List.sum_le_sum
    intro r hr
    rw [List.mem_range] at hr
    have := bucket_between hblen hbs hbh (rows := R r) (fun y hy => by obtain ⟨a, b, _⟩ := hlegal r hr y hy; exact ⟨a, b⟩) d 0 (by omega)
    simp only [Function.comp]
    have e : ((List.range n).map (fun d => 5 * (bucket n bounds 0 (R r) d).length)).getD d 0 = 5 * (bucket n bounds 0 (R r) d).length := by
      simp [List.getD_eq_getElem?_getD, hd]
    rw [e]; omega
  have hlow : ∀ y : Row ℝ, Between bounds d (min y.theta (Real.pi - y.theta)) → (s d : ℤ) ≤ binOf e.nbin y.theta := by
    intro y hy
    have := hy.1 ((s d : ℝ) * (wbin e.nbin : ℝ)) (by rw [hbe]; simp [hd])
    unfold binOf
    rw [Int.le_floor, foldGt_min, le_div_iff₀ hw]
    exact_mod_cast this
  have hfin : ((samples n R).countP (fun y => @decide (Between bounds d (min y.theta (Real.pi - y.theta))) (Classical.propDecidable _)) : ℝ) ≤
      (samples n R).length / n + 2 * M := by
    by_cases hdn : d + 1 < n
    · obtain ⟨g1, g2⟩ := hsteps d hdn
      have hup : ∀ y : Row ℝ, Between bounds d (min y.theta (Real.pi - y.theta)) → binOf e.nbin y.theta < (s (d + 1) + 1 : ℕ) := by
        intro y hy
        have := hy.2 ((s (d + 1) : ℝ) * (wbin e.nbin : ℝ)) (by rw [hbe]; simp [hdn])
        unfold binOf
        rw [Int.floor_lt, foldGt_min, div_lt_iff₀ hw]
        push_cast
        nlinarith
      have hcount : (samples n R).countP (fun y => @decide (Between bounds d (min y.theta (Real.pi - y.theta))) (Classical.propDecidable _)) +
          (samples n R).countP (fun y => decide (((s (d + 1) + 1 : ℕ) : ℤ) ≤ binOf e.nbin y.theta)) ≤
          (samples n R).countP (fun y => decide ((s d : ℤ) ≤ binOf e.nbin y.theta)) := by
        have hmono : ∀ (rows : List (Row ℝ)), (s d ≤ s (d + 1) + 1) → rows.countP (fun y => @decide (Between bounds d (min y.theta (Real.pi - y.theta))) (Classical.propDecidable _)) +
            rows.countP (fun y => decide (((s (d + 1) + 1 : ℕ) : ℤ) ≤ binOf e.nbin y.theta)) ≤
            rows.countP (fun y => decide ((s d : ℤ) ≤ binOf e.nbin y.theta)) := by
          intro rows hsd
          induction rows with
          | nil => simp
          | cons y rows ih =>
            rw [List.countP_cons, List.countP_cons, List.countP_cons]
            simp only [decide_eq_true_eq]
            have a1 := hlow y
            have a2 := hup y
            by_cases hy : Between bounds d (min y.theta (Real.pi - y.theta))
            · have a1 := a1 hy
              have a2 := a2 hy
              rw [if_pos (@decide_eq_true _ (Classical.propDecidable _) hy), if_neg (show ¬((s (d + 1) + 1 : ℕ) : ℤ) ≤ binOf e.nbin y.theta by omega), if_pos a1]
              omega
            · rw [if_neg (fun h => hy (@of_decide_eq_true _ (Classical.propDecidable _) h))]
              split_ifs <;> omega
        apply hmono
        -- boundaries are sorted
        have hle2 := List.pairwise_iff_getElem.mp hbs d (d + 1) (by omega) (by omega) (by omega)
        simp only [hbe, List.getElem_map, List.getElem_range] at hle2
        have := le_of_mul_le_mul_right hle2 hw
        have : s d ≤ s (d + 1) := by exact_mod_cast this
        omega
      rw [hdrop, hdrop, hsum] at g2
      push_cast at g2
      have : ((samples n R).countP (fun y => @decide (Between bounds d (min y.theta (Real.pi - y.theta))) (Classical.propDecidable _)) : ℝ) +
          (samples n R).countP (fun y => decide (((s (d + 1) + 1 : ℕ) : ℤ) ≤ binOf e.nbin y.theta)) ≤
          (samples n R).countP (fun y => decide ((s d : ℤ) ≤ binOf e.nbin y.theta)) := by exact_mod_cast hcount
      push_cast at this
      linarith
    · have hdn' : n - 1 = d := by omega
      rw [hdn', hdrop, hsum] at hlast
      have : (samples n R).countP (fun y => @decide (Between bounds d (min y.theta (Real.pi - y.theta))) (Classical.propDecidable _)) ≤
          (samples n R).countP (fun y => decide ((s d : ℤ) ≤ binOf e.nbin y.theta)) := by
        apply List.countP_mono_left
        intro y _ hy
        simp only [decide_eq_true_eq] at hy ⊢
        exact hlow y hy
      have : ((samples n R).countP (fun y => @decide (Between bounds d (min y.theta (Real.pi - y.theta))) (Classical.propDecidable _)) : ℝ) ≤
          (samples n R).countP (fun y => decide ((s d : ℤ) ≤ binOf e.nbin y.theta)) := by exact_mod_cast this
      push_cast at hlast
      linarith
  have hle' : ((((List.range n).map (fun r => ((List.range n).map (fun d => 5 * (bucket n bounds 0 (R r) d).length)).getD d 0)).sum : ℕ) : ℝ) ≤
      5 * ((samples n R).countP (fun y => @decide (Between bounds d (min y.theta (Real.pi - y.theta))) (Classical.propDecidable _)) : ℝ) := by
    exact_mod_cast hle
  linarith

end Verif.Tod
