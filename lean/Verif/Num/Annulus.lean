import Verif.Num.KernelProps

/-!
# Ring synthesis: proofs (C18)
-/

namespace Verif.Num
open Verif Res Finset
open scoped Classical

/-- Modification of the cells in `P`. -/
noncomputable def A3.modif (P : ℕ → ℕ → ℕ → Prop) (g : ℕ → ℕ → ℕ → ℂ → ℂ) (C : A3 ℂ) : A3 ℂ :=
  { C with val := fun i j k => if P i j k then g i j k (C.val i j k) else C.val i j k }

/-- Dimensions. -/
def A3.Dim (C : A3 ℂ) (n1 n2 n3 : ℕ) : Prop := C.n1 = n1 ∧ C.n2 = n2 ∧ C.n3 = n3

theorem A3.modif_dim {C : A3 ℂ} {n1 n2 n3 : ℕ} (h : C.Dim n1 n2 n3) (P : ℕ → ℕ → ℕ → Prop) (g : ℕ → ℕ → ℕ → ℂ → ℂ) :
    (C.modif P g).Dim n1 n2 n3 := h

theorem A3.ext' {a b : A3 ℂ} (h1 : a.n1 = b.n1) (h2 : a.n2 = b.n2) (h3 : a.n3 = b.n3) (h : ∀ i j k, a.val i j k = b.val i j k) :
    a = b := by
  cases a; cases b
  simp only at h1 h2 h3 h
  subst h1; subst h2; subst h3
  congr
  funext i j k; exact h i j k

theorem upd3_modif {C : A3 ℂ} {n1 n2 n3 i j k : ℕ} (h : C.Dim n1 n2 n3) (hi : i < n1) (hj : j < n2) (hk : k < n3) (f : ℂ → ℂ)
    (g : ℕ → ℕ → ℕ → ℂ → ℂ) (hg : g i j k = f) :
    upd3 C i j k f = ok (C.modif (fun i' j' k' => i' = i ∧ j' = j ∧ k' = k) g) := by
  obtain ⟨h1, h2, h3⟩ := h
  unfold upd3 A3.modif
  rw [if_pos ⟨by omega, by omega, by omega⟩]
  congr 1
  refine A3.ext' (by rfl) (by rfl) (by rfl) ?_
  intro a b c
  simp only [Int.toNat_natCast]
  by_cases hc : a = i ∧ b = j ∧ c = k
  · obtain ⟨rfl, rfl, rfl⟩ := hc
    simp [hg]
  · rw [if_neg hc, if_neg hc]

/-- A loop whose iterations modify disjoint sets of cells, in any order. -/
theorem forL_modif {n1 n2 n3 : ℕ} {P : ℕ → ℕ → ℕ → ℕ → Prop} {g : ℕ → ℕ → ℕ → ℂ → ℂ} {f : ℕ → A3 ℂ → Res (A3 ℂ)} :
    ∀ (xs : List ℕ), xs.Nodup → (∀ x ∈ xs, ∀ C : A3 ℂ, C.Dim n1 n2 n3 → f x C = ok (C.modif (P x) g)) →
    (∀ x y i j k, P x i j k → P y i j k → x = y) →
    ∀ C : A3 ℂ, C.Dim n1 n2 n3 → forL xs f C = ok (C.modif (fun i j k => ∃ x ∈ xs, P x i j k) g) := by
  intro xs
  induction xs with
  | nil =>
    intro _ _ _ C _
    show ok C = _
    congr 1
    refine A3.ext' (by rfl) (by rfl) (by rfl) ?_
    intro i j k
    simp [A3.modif]
  | cons x xs ih =>
    intro hn hf hd C hC
    rw [List.nodup_cons] at hn
    rw [forL_cons, hf x (by simp) C hC, ok_bind,
      ih hn.2 (fun y hy => hf y (by simp [hy])) hd _ (A3.modif_dim hC _ _)]
    congr 1
    refine A3.ext' (by rfl) (by rfl) (by rfl) ?_
    intro i j k
    simp only [A3.modif, List.mem_cons]
    by_cases h1 : P x i j k
    · have h2 : ¬ ∃ y ∈ xs, P y i j k := by
        rintro ⟨y, hy, hp⟩
        exact hn.1 (by rw [hd x y i j k h1 hp]; exact hy)
      rw [if_neg h2, if_pos h1, if_pos ⟨x, Or.inl rfl, h1⟩]
    · by_cases h2 : ∃ y ∈ xs, P y i j k
      · obtain ⟨y, hy, hp⟩ := h2
        rw [if_pos ⟨y, hy, hp⟩, if_neg h1, if_pos ⟨y, Or.inr hy, hp⟩]
      · rw [if_neg h2, if_neg h1, if_neg]
        rintro ⟨y, hy | hy, hp⟩
        · exact h1 (hy ▸ hp)
        · exact h2 ⟨y, hy, hp⟩

theorem modif_congr {C : A3 ℂ} {P Q : ℕ → ℕ → ℕ → Prop} {g : ℕ → ℕ → ℕ → ℂ → ℂ} (h : ∀ i j k, P i j k ↔ Q i j k) :
    C.modif P g = C.modif Q g := by
  have : P = Q := by funext i j k; exact propext (h i j k)
  rw [this]

/-! ## tables -/

theorem rd_tab {n : ℕ} (f : ℕ → ℝ) {i : ℕ} (h : i < n) : rd ((List.range n).map f) i = ok (f i) := by
  rw [rd_nat (by simpa using h)]; simp

theorem rot_exp (a : ℝ) (z : ℂ) : rot (Real.cos a) (Real.sin a) z = Complex.exp (-(a * Complex.I)) * z := by
  have : Complex.exp (-(a * Complex.I)) = ⟨Real.cos a, -Real.sin a⟩ := by
    rw [show -(a * Complex.I) = ((-a : ℝ) : ℂ) * Complex.I by push_cast; ring, Complex.exp_mul_I, ← Complex.ofReal_cos,
      ← Complex.ofReal_sin, Real.cos_neg, Real.sin_neg]
    apply Complex.ext <;> simp [Complex.cos_ofReal_re, Complex.sin_ofReal_re]
  rw [this]
  unfold rot
  apply Complex.ext <;> simp <;> ring

/-- What `cfft::backward` of length `n` computes. -/
def IsBackward (fft : List ℂ → List ℂ) (n : ℕ) : Prop :=
  ∀ xs : List ℂ, xs.length = n → (fft xs).length = n ∧
    ∀ k, k < n → (fft xs).getD k 0 = ∑ j ∈ range n, xs.getD j 0 * Complex.exp (2 * Real.pi * Complex.I * j * k / n)

/-! ## the three loops -/

theorem annulusA_ok {order : List ℕ} {lmax npsi nlat : ℕ} (ho : order.Perm (List.range (2 * lmax + 1))) {C : A3 ℂ}
    (hC : C.Dim (2 * lmax + 1) npsi nlat) :
    annulusA order lmax npsi nlat C = ok (C.modif (fun i j k => i < 2 * lmax + 1 ∧ j < npsi ∧ k < nlat)
      (fun i _ _ z => Complex.exp (Real.pi / 2 * ((i : ℝ) - lmax) * Complex.I) * z)) := by
  unfold annulusA
  have hnd : order.Nodup := ho.nodup_iff.mpr List.nodup_range
  have hmem : ∀ x, x ∈ order ↔ x < 2 * lmax + 1 := fun x => by rw [ho.mem_iff, List.mem_range]
  rw [forL_modif (n1 := 2 * lmax + 1) (n2 := npsi) (n3 := nlat) (P := fun x i j k => i = x ∧ j < npsi ∧ k < nlat)
    (g := fun i _ _ z => Complex.exp (Real.pi / 2 * ((i : ℝ) - lmax) * Complex.I) * z) order hnd ?_ ?_ C hC]
  · congr 1
    apply modif_congr
    intro i j k
    constructor
    · rintro ⟨x, hx, rfl, h2, h3⟩; exact ⟨(hmem _).mp hx, h2, h3⟩
    · rintro ⟨h1, h2, h3⟩; exact ⟨i, (hmem _).mpr h1, rfl, h2, h3⟩
  · intro x hx D hD
    have hx' := (hmem x).mp hx
    unfold csTab snTab
    rw [rd_tab _ hx', ok_bind, rd_tab _ hx', ok_bind]
    rw [forL_modif (n1 := 2 * lmax + 1) (n2 := npsi) (n3 := nlat) (P := fun y i j k => i = x ∧ j = y ∧ k < nlat)
      (g := fun i _ _ z => Complex.exp (Real.pi / 2 * ((i : ℝ) - lmax) * Complex.I) * z) _ List.nodup_range ?_ ?_ D hD]
    · congr 1
      apply modif_congr
      intro i j k
      simp only [List.mem_range]
      constructor
      · rintro ⟨y, hy, h1, rfl, h3⟩; exact ⟨h1, hy, h3⟩
      · rintro ⟨h1, h2, h3⟩; exact ⟨j, h2, h1, rfl, h3⟩
    · intro y hy E hE
      have hy' := List.mem_range.mp hy
      rw [forL_modif (n1 := 2 * lmax + 1) (n2 := npsi) (n3 := nlat) (P := fun w i j k => i = x ∧ j = y ∧ k = w)
        (g := fun i _ _ z => Complex.exp (Real.pi / 2 * ((i : ℝ) - lmax) * Complex.I) * z) _ List.nodup_range ?_ ?_ E hE]
      · congr 1
        apply modif_congr
        intro i j k
        simp only [List.mem_range]
        constructor
        · rintro ⟨w, hw, h1, h2, rfl⟩; exact ⟨h1, h2, hw⟩
        · rintro ⟨h1, h2, h3⟩; exact ⟨k, h3, h1, h2, rfl⟩
      · intro w hw G hG
        have hw' := List.mem_range.mp hw
        apply upd3_modif hG hx' hy' hw'
        funext z
        rw [rot_exp]
        congr 2
        push_cast; ring
      · rintro a b i j k ⟨_, _, h⟩ ⟨_, _, h'⟩; rw [← h, ← h']
    · rintro a b i j k ⟨_, h, _⟩ ⟨_, h', _⟩; rw [← h, ← h']
  · rintro a b i j k ⟨h, _, _⟩ ⟨h', _, _⟩; rw [← h, ← h']

theorem mapM_range_ok {n : ℕ} {f : ℕ → Res ℂ} {v : ℕ → ℂ} (h : ∀ i < n, f i = ok (v i)) :
    (List.range n).mapM f = ok ((List.range n).map v) := by
  have : ∀ xs : List ℕ, (∀ x ∈ xs, f x = ok (v x)) → xs.mapM f = ok (xs.map v) := by
    intro xs
    induction xs with
    | nil => intro _; rfl
    | cons x xs ih =>
      intro hx
      rw [List.mapM_cons, hx x (by simp), ok_bind, ih (fun y hy => hx y (by simp [hy])), ok_bind]
      rfl
  exact this _ (fun x hx => h x (List.mem_range.mp hx))

theorem annulusB_ok {order : List ℕ} {fft : List ℂ → List ℂ} {lmax npsi nlat : ℕ} (hf : IsBackward fft (2 * lmax + 1))
    (ho : order.Perm (List.range npsi)) {C T : A3 ℂ} (hC : C.Dim (2 * lmax + 1) npsi nlat) (hT : T.Dim (2 * lmax + 1) npsi nlat) :
    annulusB order fft lmax nlat C T = ok (T.modif (fun i j k => i < 2 * lmax + 1 ∧ j < npsi ∧ k < nlat)
      (fun i j k _ => ∑ ii ∈ range (2 * lmax + 1), C.val ii j k *
        Complex.exp (2 * Real.pi * Complex.I * ii * i / ((2 * lmax + 1 : ℕ) : ℂ)))) := by
  unfold annulusB
  have hnd : order.Nodup := ho.nodup_iff.mpr List.nodup_range
  have hmem : ∀ x, x ∈ order ↔ x < npsi := fun x => by rw [ho.mem_iff, List.mem_range]
  rw [forL_modif (n1 := 2 * lmax + 1) (n2 := npsi) (n3 := nlat) (P := fun x i j k => i < 2 * lmax + 1 ∧ j = x ∧ k < nlat)
    (g := fun i j k _ => ∑ ii ∈ range (2 * lmax + 1), C.val ii j k *
        Complex.exp (2 * Real.pi * Complex.I * ii * i / ((2 * lmax + 1 : ℕ) : ℂ))) order hnd ?_ ?_ T hT]
  · congr 1
    apply modif_congr
    intro i j k
    constructor
    · rintro ⟨x, hx, h1, rfl, h3⟩; exact ⟨h1, (hmem _).mp hx, h3⟩
    · rintro ⟨h1, h2, h3⟩; exact ⟨j, (hmem _).mpr h2, h1, rfl, h3⟩
  · intro x hx D hD
    have hx' := (hmem x).mp hx
    rw [forL_modif (n1 := 2 * lmax + 1) (n2 := npsi) (n3 := nlat) (P := fun y i j k => i < 2 * lmax + 1 ∧ j = x ∧ k = y)
      (g := fun i j k _ => ∑ ii ∈ range (2 * lmax + 1), C.val ii j k *
        Complex.exp (2 * Real.pi * Complex.I * ii * i / ((2 * lmax + 1 : ℕ) : ℂ))) _ List.nodup_range ?_ ?_ D hD]
    · congr 1
      apply modif_congr
      intro i j k
      simp only [List.mem_range]
      constructor
      · rintro ⟨y, hy, h1, h2, rfl⟩; exact ⟨h1, h2, hy⟩
      · rintro ⟨h1, h2, h3⟩; exact ⟨k, h3, h1, h2, rfl⟩
    · intro y hy E hE
      have hy' := List.mem_range.mp hy
      rw [mapM_range_ok (v := fun ii => C.val ii x y) (fun ii hii => by
        unfold rd3
        rw [if_pos ⟨⟨by omega, by rw [hC.1]; exact_mod_cast hii⟩, ⟨by omega, by rw [hC.2.1]; exact_mod_cast hx'⟩,
          ⟨by omega, by rw [hC.2.2]; exact_mod_cast hy'⟩⟩]
        simp), ok_bind]
      dsimp only
      obtain ⟨hl, hv⟩ := hf ((List.range (2 * lmax + 1)).map (fun ii => C.val ii x y)) (by simp)
      rw [forL_modif (n1 := 2 * lmax + 1) (n2 := npsi) (n3 := nlat) (P := fun w i j k => i = w ∧ j = x ∧ k = y)
        (g := fun i j k _ => ∑ ii ∈ range (2 * lmax + 1), C.val ii j k *
        Complex.exp (2 * Real.pi * Complex.I * ii * i / ((2 * lmax + 1 : ℕ) : ℂ))) _ List.nodup_range ?_ ?_ E hE]
      · congr 1
        apply modif_congr
        intro i j k
        simp only [List.mem_range]
        constructor
        · rintro ⟨w, hw, rfl, h2, h3⟩; exact ⟨hw, h2, h3⟩
        · rintro ⟨h1, h2, h3⟩; exact ⟨i, h1, rfl, h2, h3⟩
      · intro w hw G hG
        have hw' := List.mem_range.mp hw
        rw [rd_nat (by rw [hl]; exact hw'), ok_bind]
        apply upd3_modif hG hw' hx' hy'
        funext z
        have := hv w hw'
        rw [List.getD_eq_getElem?_getD, List.getElem?_eq_getElem (by rw [hl]; exact hw'), Option.getD_some] at this
        rw [this]
        apply Finset.sum_congr rfl
        intro ii hii
        have hii' := Finset.mem_range.mp hii
        congr 1
        rw [List.getD_eq_getElem?_getD, List.getElem?_map, List.getElem?_range hii']; rfl
      · rintro a b i j k ⟨h, _, _⟩ ⟨h', _, _⟩; rw [← h, ← h']
    · rintro a b i j k ⟨_, _, h⟩ ⟨_, _, h'⟩; rw [← h, ← h']
  · rintro a b i j k ⟨_, h, _⟩ ⟨_, h', _⟩; rw [← h, ← h']

theorem annulusC_ok {order : List ℕ} {lmax npsi nlat : ℕ} (ho : order.Perm (List.range (2 * lmax + 1))) (hn : npsi ≤ lmax + 1)
    {T : A3 ℂ} (hT : T.Dim (2 * lmax + 1) npsi nlat) :
    annulusC order lmax npsi nlat T = ok (T.modif (fun i j k => i < 2 * lmax + 1 ∧ j < npsi ∧ k < nlat)
      (fun i j _ z => Complex.exp (Real.pi / 2 * (j : ℝ) * Complex.I) *
        (Complex.exp (-(i * (2 * Real.pi * lmax / (2 * lmax + 1)) * Complex.I)) * z))) := by
  unfold annulusC
  have hnd : order.Nodup := ho.nodup_iff.mpr List.nodup_range
  have hmem : ∀ x, x ∈ order ↔ x < 2 * lmax + 1 := fun x => by rw [ho.mem_iff, List.mem_range]
  rw [forL_modif (n1 := 2 * lmax + 1) (n2 := npsi) (n3 := nlat) (P := fun x i j k => i = x ∧ j < npsi ∧ k < nlat)
    (g := fun i j _ z => Complex.exp (Real.pi / 2 * (j : ℝ) * Complex.I) *
        (Complex.exp (-(i * (2 * Real.pi * lmax / (2 * lmax + 1)) * Complex.I)) * z)) order hnd ?_ ?_ T hT]
  · congr 1
    apply modif_congr
    intro i j k
    constructor
    · rintro ⟨x, hx, rfl, h2, h3⟩; exact ⟨(hmem _).mp hx, h2, h3⟩
    · rintro ⟨h1, h2, h3⟩; exact ⟨i, (hmem _).mpr h1, rfl, h2, h3⟩
  · intro x hx D hD
    have hx' := (hmem x).mp hx
    unfold cs0Tab sn0Tab
    rw [rd_tab _ hx', ok_bind, rd_tab _ hx', ok_bind]
    rw [forL_modif (n1 := 2 * lmax + 1) (n2 := npsi) (n3 := nlat) (P := fun y i j k => i = x ∧ j = y ∧ k < nlat)
      (g := fun i j _ z => Complex.exp (Real.pi / 2 * (j : ℝ) * Complex.I) *
        (Complex.exp (-(i * (2 * Real.pi * lmax / (2 * lmax + 1)) * Complex.I)) * z)) _ List.nodup_range ?_ ?_ D hD]
    · congr 1
      apply modif_congr
      intro i j k
      simp only [List.mem_range]
      constructor
      · rintro ⟨y, hy, h1, rfl, h3⟩; exact ⟨h1, hy, h3⟩
      · rintro ⟨h1, h2, h3⟩; exact ⟨j, h2, h1, rfl, h3⟩
    · intro y hy E hE
      have hy' := List.mem_range.mp hy
      unfold csTab snTab
      rw [show ((y : ℤ) + lmax) = ((y + lmax : ℕ) : ℤ) by push_cast; rfl, rd_tab _ (by omega), ok_bind, rd_tab _ (by omega), ok_bind]
      rw [forL_modif (n1 := 2 * lmax + 1) (n2 := npsi) (n3 := nlat) (P := fun w i j k => i = x ∧ j = y ∧ k = w)
        (g := fun i j _ z => Complex.exp (Real.pi / 2 * (j : ℝ) * Complex.I) *
        (Complex.exp (-(i * (2 * Real.pi * lmax / (2 * lmax + 1)) * Complex.I)) * z)) _ List.nodup_range ?_ ?_ E hE]
      · congr 1
        apply modif_congr
        intro i j k
        simp only [List.mem_range]
        constructor
        · rintro ⟨w, hw, h1, h2, rfl⟩; exact ⟨h1, h2, hw⟩
        · rintro ⟨h1, h2, h3⟩; exact ⟨k, h3, h1, h2, rfl⟩
      · intro w hw G hG
        have hw' := List.mem_range.mp hw
        apply upd3_modif hG hx' hy' hw'
        funext z
        rw [rot_exp, rot_exp]
        congr 2
        · push_cast; ring
        · push_cast; rfl
      · rintro a b i j k ⟨_, _, h⟩ ⟨_, _, h'⟩; rw [← h, ← h']
    · rintro a b i j k ⟨_, h, _⟩ ⟨_, h', _⟩; rw [← h, ← h']
  · rintro a b i j k ⟨h, _, _⟩ ⟨h', _, _⟩; rw [← h, ← h']

/-- Longitude of ring sample `k`. -/
noncomputable def phiK (lmax k : ℕ) : ℝ := Real.pi / 2 + 2 * Real.pi * k / (2 * lmax + 1)

/-- C18: for every cube of coefficients (first index `m + lmax`), beam orders not above `lmax`, every order in which the
parallel iterations run, `todAnnulus` is defined and sample `k` of ring `lat` for beam order `mb` is
`exp(i π/2 mb) Σ_{|m| ≤ lmax} C(m) exp(i m φ_k)`, `φ_k = π/2 + 2πk/nphi`, given that `cfft::backward` computes the
backward DFT (C41). -/
theorem C18_synthesis {oA oB oC : List ℕ} {fft : List ℂ → List ℂ} {lmax npsi nlat : ℕ} (hf : IsBackward fft (2 * lmax + 1))
    (hA : oA.Perm (List.range (2 * lmax + 1))) (hB : oB.Perm (List.range npsi)) (hCo : oC.Perm (List.range (2 * lmax + 1)))
    (hn : npsi ≤ lmax + 1) {C : A3 ℂ} (hC : C.n1 = 2 * lmax + 1 ∧ C.n2 = npsi ∧ C.n3 = nlat) :
    ∃ T, todAnnulus oA oB oC fft lmax npsi nlat C = ok T ∧ (T.n1 = 2 * lmax + 1 ∧ T.n2 = npsi ∧ T.n3 = nlat) ∧
      ∀ k mb lat : ℕ, k < 2 * lmax + 1 → mb < npsi → lat < nlat →
        T.val k mb lat = Complex.exp (Complex.I * (Real.pi / 2) * mb) *
          ∑ m ∈ Icc (-(lmax : ℤ)) lmax, C.val (m + lmax).toNat mb lat * Complex.exp (Complex.I * m * phiK lmax k) := by
  unfold todAnnulus
  rw [annulusA_ok hA hC, ok_bind,
    annulusB_ok hf hB (A3.modif_dim hC _ _) (T := zero3 (2 * lmax + 1) npsi nlat) ⟨rfl, rfl, rfl⟩, ok_bind,
    annulusC_ok (nlat := nlat) hCo hn (A3.modif_dim (C := zero3 (2 * lmax + 1) npsi nlat) ⟨rfl, rfl, rfl⟩ _ _)]
  refine ⟨_, rfl, ⟨rfl, rfl, rfl⟩, fun k mb lat hk hmb hlat => ?_⟩
  have hin : k < 2 * lmax + 1 ∧ mb < npsi ∧ lat < nlat := ⟨hk, hmb, hlat⟩
  simp only [A3.modif, if_pos hin]
  have e1 : Complex.exp (Real.pi / 2 * ((mb : ℝ) : ℂ) * Complex.I) = Complex.exp (Complex.I * (Real.pi / 2) * mb) := by
    congr 1; push_cast; ring
  rw [e1]
  congr 1
  rw [Finset.mul_sum]
  symm
  apply Finset.sum_bij' (fun (m : ℤ) _ => (m + lmax).toNat) (fun (i : ℕ) _ => (i : ℤ) - lmax)
  · intro m hm; rw [Finset.mem_Icc] at hm; rw [Finset.mem_range]; omega
  · intro i hi; rw [Finset.mem_range] at hi; rw [Finset.mem_Icc]; omega
  · intro m hm; rw [Finset.mem_Icc] at hm; omega
  · intro i hi; rw [Finset.mem_range] at hi; omega
  · intro m hm
    rw [Finset.mem_Icc] at hm
    have hi : (m + lmax).toNat < 2 * lmax + 1 ∧ mb < npsi ∧ lat < nlat := ⟨by omega, hmb, hlat⟩
    simp only [if_pos hi]
    have hmi : (((m + lmax).toNat : ℕ) : ℂ) = (m : ℂ) + lmax := by
      have : (((m + lmax).toNat : ℕ) : ℤ) = m + lmax := by omega
      exact_mod_cast congrArg (Int.cast : ℤ → ℂ) this
    set c := C.val (m + lmax).toNat mb lat
    have hpos : (2 * (lmax : ℂ) + 1) ≠ 0 := by exact_mod_cast (by omega : (2 * lmax + 1) ≠ 0)
    have : Complex.exp (Complex.I * m * phiK lmax k) =
        Complex.exp (-(k * (2 * Real.pi * lmax / (2 * lmax + 1)) * Complex.I)) *
        (Complex.exp (Real.pi / 2 * (((m + lmax).toNat : ℝ) - lmax) * Complex.I) *
          Complex.exp (2 * Real.pi * Complex.I * ((m + lmax).toNat : ℕ) * k / ((2 * lmax + 1 : ℕ) : ℂ))) := by
      rw [← Complex.exp_add, ← Complex.exp_add]
      congr 1
      unfold phiK
      push_cast
      rw [hmi]
      field_simp
      ring
    rw [this]
    push_cast
    ring

/-- Witness: the direct sum is a backward DFT (the program's plans are the subject of C41). -/
example : IsBackward (fun xs => (List.range 5).map (fun k => ∑ j ∈ range 5, xs.getD j 0 *
    Complex.exp (2 * Real.pi * Complex.I * j * (k : ℕ) / (5 : ℕ)))) (2 * 2 + 1) := by
  intro xs _
  refine ⟨by simp, fun k hk => ?_⟩
  rw [List.getD_eq_getElem?_getD, List.getElem?_map, List.getElem?_range hk]; rfl

end Verif.Num
