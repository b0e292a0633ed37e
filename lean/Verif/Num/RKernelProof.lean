import Verif.Num.RKernel
import Verif.Num.Near

/-!
# The kernel in floating point: what is computed
-/

namespace Verif.Num
open Verif Res Finset
open scoped Classical

/-! ## modification of cells -/

theorem modif_modif_same {C : A3 ℂ} {P : ℕ → ℕ → ℕ → Prop} {g h : ℕ → ℕ → ℕ → ℂ → ℂ} :
    (C.modif P g).modif P h = C.modif P (fun i j k c => h i j k (g i j k c)) := by
  refine A3.ext' rfl rfl rfl fun i j k => ?_
  simp only [A3.modif]
  by_cases hP : P i j k
  · simp [hP]
  · simp [hP]

theorem modif_modif_disj {C : A3 ℂ} {P Q : ℕ → ℕ → ℕ → Prop} {g : ℕ → ℕ → ℕ → ℂ → ℂ} (h : ∀ i j k, P i j k → ¬ Q i j k) :
    (C.modif P g).modif Q g = C.modif (fun i j k => P i j k ∨ Q i j k) g := by
  refine A3.ext' rfl rfl rfl fun i j k => ?_
  simp only [A3.modif]
  by_cases hP : P i j k
  · simp [hP, h i j k hP]
  · simp [hP]

theorem modif_id {C : A3 ℂ} {P : ℕ → ℕ → ℕ → Prop} : C.modif P (fun _ _ _ c => c) = C := by
  refine A3.ext' rfl rfl rfl fun i j k => ?_
  simp [A3.modif]

theorem modif_congr' {C : A3 ℂ} {P : ℕ → ℕ → ℕ → Prop} {g h : ℕ → ℕ → ℕ → ℂ → ℂ} (e : ∀ i j k, P i j k → g i j k = h i j k) :
    C.modif P g = C.modif P h := by
  refine A3.ext' rfl rfl rfl fun i j k => ?_
  simp only [A3.modif]
  by_cases hP : P i j k
  · simp [hP, e i j k hP]
  · simp [hP]

/-- A loop over two cubes whose iterations modify disjoint sets of cells, in any order. -/
theorem forL_modif2 {n1 n2 n3 : ℕ} {P : ℕ → ℕ → ℕ → ℕ → Prop} {g g' : ℕ → ℕ → ℕ → ℂ → ℂ} {f : ℕ → A3 ℂ × A3 ℂ → Res (A3 ℂ × A3 ℂ)} :
    ∀ (xs : List ℕ), xs.Nodup →
    (∀ x ∈ xs, ∀ C D : A3 ℂ, C.Dim n1 n2 n3 → D.Dim n1 n2 n3 → f x (C, D) = ok (C.modif (P x) g, D.modif (P x) g')) →
    (∀ x y i j k, P x i j k → P y i j k → x = y) →
    ∀ C D : A3 ℂ, C.Dim n1 n2 n3 → D.Dim n1 n2 n3 →
      forL xs f (C, D) = ok (C.modif (fun i j k => ∃ x ∈ xs, P x i j k) g, D.modif (fun i j k => ∃ x ∈ xs, P x i j k) g') := by
  intro xs
  induction xs with
  | nil =>
    intro _ _ _ C D _ _
    show ok (C, D) = _
    refine congrArg ok (Prod.ext ?_ ?_) <;>
    · refine A3.ext' (by rfl) (by rfl) (by rfl) ?_
      intro i j k
      simp [A3.modif]
  | cons x xs ih =>
    intro hn hf hd C D hC hD
    rw [List.nodup_cons] at hn
    rw [forL_cons, hf x (by simp) C D hC hD, ok_bind,
      ih hn.2 (fun y hy => hf y (by simp [hy])) hd _ _ (A3.modif_dim hC _ _) (A3.modif_dim hD _ _)]
    have key : ∀ (E : A3 ℂ) (h : ℕ → ℕ → ℕ → ℂ → ℂ), (E.modif (P x) h).modif (fun i j k => ∃ y ∈ xs, P y i j k) h =
        E.modif (fun i j k => ∃ y ∈ x :: xs, P y i j k) h := by
      intro E h
      rw [modif_modif_disj]
      · apply modif_congr
        intro i j k
        simp only [List.mem_cons, exists_eq_or_imp]
      · rintro i j k h1 ⟨y, hy, hp⟩
        exact hn.1 (by rw [hd x y i j k h1 hp]; exact hy)
    exact congrArg ok (Prod.ext (key C g) (key D g'))

/-! ## values -/

/-- Stored coefficients as the kernel reads them. -/
noncomputable def sum3R (f : FKern) (x y z : ℝ) : ℝ := f.rs (f.rs (f.rs x + f.rs y) + f.rs z)

/-- Values of `prod1 … prod4`. -/
noncomputable def prodsV (f : FKern) (pol : Bool) (s b : Exps) (l m mb : ℕ) : ℝ × ℝ × ℝ × ℝ :=
  let T := coef s.T l m; let T' := coef b.T l mb
  let G := coef s.G l m; let G' := coef b.G l mb
  let C := coef s.C l m; let C' := coef b.C l mb
  if pol then
    (sum3R f (T.re * T'.re) (G.re * G'.re) (C.re * C'.re), sum3R f (T.im * T'.im) (G.im * G'.im) (C.im * C'.im),
      sum3R f (T.im * T'.re) (G.im * G'.re) (C.im * C'.re), sum3R f (T.re * T'.im) (G.re * G'.im) (C.re * C'.im))
  else (f.rs (T.re * T'.re), f.rs (T.im * T'.im), f.rs (T.im * T'.re), f.rs (T.re * T'.im))

theorem prodsR_ok {f : FKern} {pol : Bool} {s b : Exps} {lmax npsi : ℕ} (h : KernelOK pol s b lmax npsi) {l m mb : ℕ} (hl : l ≤ lmax)
    (hm : m ≤ l) (hb : mb ≤ l) (hmb : mb < npsi) : prodsR f pol s b l m mb = ok (prodsV f pol s b l m mb) := by
  have key : ∀ {x y : Harm.Alm ℂ}, Fits lmax npsi x y → x.get l m = ok (coef x l m) ∧ y.get l mb = ok (coef y l mb) := by
    intro x y hf
    have := hf.sl; have := hf.sm; have := hf.bl; have := hf.bm
    exact ⟨get_coef hf.swf hm (by omega) (by omega), get_coef hf.bwf hb (by omega) (by omega)⟩
  obtain ⟨t1, t2⟩ := key h.fT
  unfold prodsR prodsV
  cases pol with
  | false =>
    simp only [Bool.false_eq_true, if_false]
    rw [t1, t2]; rfl
  | true =>
    obtain ⟨g1, g2⟩ := key (h.fG rfl)
    obtain ⟨c1, c2⟩ := key (h.fC rfl)
    simp only [if_true]
    rw [t1, t2, g1, g2, c1, c2]; rfl

/-- The pair `tmp_1, tmp_2` (order `M ≥ 0`) or `tmp_3, tmp_4` (`M < 0`). -/
noncomputable def tmpV (f : FKern) (pol : Bool) (s b : Exps) (mb : ℕ) (M : ℤ) (l : ℕ) : ℂ :=
  let p := prodsV f pol s b l M.natAbs mb
  if 0 ≤ M then ⟨f.rb (p.1 + p.2.1), f.rb (p.2.2.1 - p.2.2.2)⟩
  else ⟨f.rb (xpow M.natAbs 1 * f.rb (p.1 - p.2.1)), f.rb (-xpow M.natAbs 1 * f.rb (p.2.2.1 + p.2.2.2))⟩

/-- The element of the generator. -/
noncomputable def genV (f : FKern) (mb : ℕ) (M : ℤ) (it l : ℕ) : ℝ := (f.gen mb M it).2.getD l 0

/-- The element with its sign, northern or southern ring. -/
noncomputable def elemV (f : FKern) (south : Bool) (mb : ℕ) (M : ℤ) (it l : ℕ) : ℝ :=
  if south then f.rb (xpow l (xpow mb 1) * f.rb (xpow M.natAbs 1 * xpow mb 1 * genV f mb (-M) it l))
  else f.rb (xpow M.natAbs 1 * xpow mb 1 * genV f mb M it l)

/-- Componentwise rounding. -/
noncomputable def rbC (f : FKern) (z : ℂ) : ℂ := ⟨f.rb z.re, f.rb z.im⟩

/-- One accumulation. -/
noncomputable def stepV (f : FKern) (pol : Bool) (s b : Exps) (south : Bool) (mb : ℕ) (M : ℤ) (it l : ℕ) (c : ℂ) : ℂ :=
  rbC f (c + rbC f (tmpV f pol s b mb M l * (elemV f south mb M it l : ℂ)))

theorem stepV_eq (f : FKern) (pol : Bool) (s b : Exps) (south : Bool) (mb : ℕ) (M : ℤ) (it l : ℕ) :
    stepV f pol s b south mb M it l = fun c => ⟨f.rb (c.re + f.rb ((tmpV f pol s b mb M l).re * elemV f south mb M it l)),
      f.rb (c.im + f.rb ((tmpV f pol s b mb M l).im * elemV f south mb M it l))⟩ := by
  funext c
  unfold stepV rbC
  simp

/-- Accumulation of `n` degrees from `F`. -/
noncomputable def accV (f : FKern) (pol : Bool) (s b : Exps) (south : Bool) (mb : ℕ) (M : ℤ) (it F : ℕ) : ℕ → ℂ → ℂ
  | 0, c => c
  | n + 1, c => stepV f pol s b south mb M it (F + n) (accV f pol s b south mb M it F n c)

/-- First degree that is accumulated. -/
noncomputable def firstV (f : FKern) (mb m it : ℕ) : ℕ := (max (f.gen mb m it).1 (f.gen mb (-m) it).1).toNat

/-- The cell of order `M`. -/
noncomputable def cellV (f : FKern) (pol : Bool) (s b : Exps) (lmax : ℕ) (south : Bool) (mb : ℕ) (M : ℤ) (it : ℕ) (c : ℂ) : ℂ :=
  accV f pol s b south mb M it (firstV f mb M.natAbs it) (lmax + 1 - firstV f mb M.natAbs it) c

/-- What the generator must return for the kernel to be defined. -/
structure GenShape (f : FKern) (lmax npsi : ℕ) : Prop where
  first : ∀ mb m it, mb < npsi → m ≤ lmax → (max mb m : ℕ) ≤ max (f.gen mb m it).1 (f.gen mb (-m) it).1
  len : ∀ mb (M : ℤ) it, mb < npsi → |M| ≤ lmax → (f.gen mb M it).2.length = lmax + 1

/-! ## one degree -/

theorem rd_getD {xs : List ℝ} {i : ℕ} (h : i < xs.length) : rd xs i = ok (xs.getD i 0) := by
  rw [rd_nat h]; simp [List.getD, h]

theorem termR_ok {f : FKern} {pol : Bool} {s b : Exps} {lmax npsi nlat : ℕ} (h : KernelOK pol s b lmax npsi) (hg : GenShape f lmax npsi)
    {l m mb lat it : ℕ} (hl : l ≤ lmax) (hm : m ≤ l) (hb : mb ≤ l) (hmb : mb < npsi) (hlat : lat < nlat) {mine : List ℕ}
    (hit : mine.getD lat 0 = it) {st : KS} (d1 : st.C1.Dim (2 * lmax + 1) npsi nlat) (d2 : st.C2.Dim (2 * lmax + 1) npsi nlat)
    (hd : st.dlb = -(xpow l (xpow mb 1))) :
    termR f pol s b lmax mb m lat (xpow m 1) (xpow m 1 * xpow mb 1) (f.gen mb m it).2 (f.gen mb (-m) it).2 l st =
      ok ⟨xpow l (xpow mb 1),
        st.C1.modif (fun i j k => (i = lmax + m ∨ i = lmax - m) ∧ j = mb ∧ k = lat)
          (fun i j k => stepV f pol s b false j ((i : ℤ) - lmax) (mine.getD k 0) l),
        st.C2.modif (fun i j k => (i = lmax + m ∨ i = lmax - m) ∧ j = mb ∧ k = lat)
          (fun i j k => stepV f pol s b true j ((i : ℤ) - lmax) (mine.getD k 0) l)⟩ := by
  unfold termR
  have am : |(m : ℤ)| ≤ lmax := by rw [abs_of_nonneg (by omega)]; omega
  rw [rd_getD (by rw [hg.len mb m it hmb am]; omega), rd_getD (by rw [hg.len mb (-m) it hmb (by rw [abs_neg]; exact am)]; omega),
    prodsR_ok h hl hm hb hmb, hd]
  simp only [ok_bind, neg_neg]
  have hi : ((m : ℤ) + lmax) = ((lmax + m : ℕ) : ℤ) := by push_cast; ring
  have hin : (-(m : ℤ) + lmax) = ((lmax - m : ℕ) : ℤ) := by omega
  have hM : (((lmax + m : ℕ) : ℤ) - lmax) = m := by push_cast; ring
  have hMn : (((lmax - m : ℕ) : ℤ) - lmax) = -m := by omega
  unfold incrR
  rw [hi, upd3_modif d1 (by omega) hmb hlat _ (fun i j k => stepV f pol s b false j ((i : ℤ) - lmax) (mine.getD k 0) l) (by
      rw [hit, hM, stepV_eq]
      funext c
      unfold tmpV elemV genV
      simp only [Int.natCast_nonneg, if_true, Bool.false_eq_true, if_false, Int.natAbs_natCast]), ok_bind,
    upd3_modif d2 (by omega) hmb hlat _ (fun i j k => stepV f pol s b true j ((i : ℤ) - lmax) (mine.getD k 0) l) (by
      rw [hit, hM, stepV_eq]
      funext c
      unfold tmpV elemV genV
      simp only [Int.natCast_nonneg, if_true, Int.natAbs_natCast]), ok_bind]
  unfold termNegR
  by_cases hm0 : m = 0
  · rw [if_neg (by omega)]
    subst hm0
    congr 2
    · apply modif_congr; intro i j k; simp
    · apply modif_congr; intro i j k; simp
  · rw [if_pos (by omega), hin]
    dsimp only
    unfold incrR
    have hneg : ¬ (0 : ℤ) ≤ -(m : ℤ) := by omega
    rw [upd3_modif (A3.modif_dim d1 _ _) (by omega) hmb hlat _ (fun i j k => stepV f pol s b false j ((i : ℤ) - lmax) (mine.getD k 0) l) (by
      rw [hit, hMn, stepV_eq]
      funext c
      unfold tmpV elemV genV
      simp only [hneg, Bool.false_eq_true, if_false, Int.natAbs_neg, Int.natAbs_natCast]), ok_bind,
      upd3_modif (A3.modif_dim d2 _ _) (by omega) hmb hlat _ (fun i j k => stepV f pol s b true j ((i : ℤ) - lmax) (mine.getD k 0) l) (by
      rw [hit, hMn, stepV_eq]
      funext c
      unfold tmpV elemV genV
      simp only [hneg, if_false, if_true, Int.natAbs_neg, Int.natAbs_natCast, neg_neg]), ok_bind]
    congr 2
    · rw [modif_modif_disj (by omega)]
      apply modif_congr; intro i j k; tauto
    · rw [modif_modif_disj (by omega)]
      apply modif_congr; intro i j k; tauto

/-! ## one ring -/

theorem latBodyR_ok {f : FKern} {pol : Bool} {s b : Exps} {lmax npsi : ℕ} (h : KernelOK pol s b lmax npsi) (hg : GenShape f lmax npsi)
    {m mb lat nlat : ℕ} (hm : m ≤ lmax) (hmb : mb < npsi) (hlat : lat < nlat) (mine : List ℕ)
    {C1 C2 : A3 ℂ} (d1 : C1.Dim (2 * lmax + 1) npsi nlat) (d2 : C2.Dim (2 * lmax + 1) npsi nlat) :
    latBodyR f pol s b lmax mb m lat (mine.getD lat 0) (C1, C2) =
      ok (C1.modif (fun i j k => (i = lmax + m ∨ i = lmax - m) ∧ j = mb ∧ k = lat)
          (fun i j k => cellV f pol s b lmax false j ((i : ℤ) - lmax) (mine.getD k 0)),
        C2.modif (fun i j k => (i = lmax + m ∨ i = lmax - m) ∧ j = mb ∧ k = lat)
          (fun i j k => cellV f pol s b lmax true j ((i : ℤ) - lmax) (mine.getD k 0))) := by
  unfold latBodyR
  dsimp only
  have hF0 := hg.first mb m (mine.getD lat 0) hmb hm
  have hFd : firstV f mb m (mine.getD lat 0) = (max (f.gen mb m (mine.getD lat 0)).1 (f.gen mb (-m) (mine.getD lat 0)).1).toNat := rfl
  set F := firstV f mb m (mine.getD lat 0) with hF
  have hFz : max (f.gen mb m (mine.getD lat 0)).1 (f.gen mb (-m) (mine.getD lat 0)).1 = (F : ℤ) := by
    rw [hFd, Int.toNat_of_nonneg (by omega)]
  rw [hFz] at hF0 ⊢
  have hF1 : max mb m ≤ F := by exact_mod_cast hF0
  have hmbF : mb ≤ F := le_trans (le_max_left _ _) hF1
  have hmF : m ≤ F := le_trans (le_max_right _ _) hF1
  obtain ⟨st, hst, hinv⟩ := forN_inv ((lmax : ℤ) + 1 - (F : ℤ)).toNat
    (fun k st => termR f pol s b lmax mb m lat (xpow m 1) (xpow m 1 * xpow mb 1) (f.gen mb m (mine.getD lat 0)).2
      (f.gen mb (-m) (mine.getD lat 0)).2 ((F : ℤ) + k) st)
    ⟨-(xpow F (xpow mb 1)), C1, C2⟩
    (fun n st => st = ⟨-(xpow (F + n : ℕ) (xpow mb 1)),
      C1.modif (fun i j k => (i = lmax + m ∨ i = lmax - m) ∧ j = mb ∧ k = lat)
        (fun i j k => accV f pol s b false j ((i : ℤ) - lmax) (mine.getD k 0) F n),
      C2.modif (fun i j k => (i = lmax + m ∨ i = lmax - m) ∧ j = mb ∧ k = lat)
        (fun i j k => accV f pol s b true j ((i : ℤ) - lmax) (mine.getD k 0) F n)⟩)
    (by
      have e : ∀ (south : Bool) (C : A3 ℂ), C.modif (fun i j k => (i = lmax + m ∨ i = lmax - m) ∧ j = mb ∧ k = lat)
        (fun i j k => accV f pol s b south j ((i : ℤ) - lmax) (mine.getD k 0) F 0) = C := fun south C => modif_id
      rw [e, e]; rfl)
    (fun n st hk hs => by
      have hl : F + n ≤ lmax := by omega
      refine ⟨_, ?_, rfl⟩
      rw [show ((F : ℤ) + (n : ℤ)) = ((F + n : ℕ) : ℤ) by push_cast; rfl]
      rw [termR_ok h hg hl (by omega) (by omega) hmb hlat (mine := mine) rfl (st := st) (by rw [hs]; exact d1) (by rw [hs]; exact d2) (by rw [hs])]
      rw [hs]
      dsimp only
      rw [modif_modif_same, modif_modif_same]
      congr 2
      simp only [xpow_nat, pow_succ, ← add_assoc]; ring)
  rw [hst, ok_bind, hinv]
  dsimp only
  have e : ((lmax : ℤ) + 1 - (F : ℤ)).toNat = lmax + 1 - F := by omega
  rw [e]
  refine congrArg ok (Prod.ext ?_ ?_) <;>
  · apply modif_congr'
    rintro i j k ⟨hi, rfl, rfl⟩
    unfold cellV
    have : ((i : ℤ) - lmax).natAbs = m := by omega
    rw [this]

/-! ## all rings -/

theorem accumulateR_ok {f : FKern} {pol : Bool} {s b : Exps} {lmax npsi : ℕ} (h : KernelOK pol s b lmax npsi) (hg : GenShape f lmax npsi)
    {order : ℕ → List ℕ} (ho : ∀ mb, (order mb).Perm (List.range (lmax + 1))) (mine : List ℕ) :
    accumulateR f order pol s b lmax npsi mine =
      ok ((zero3 (2 * lmax + 1) npsi mine.length).modif (fun i j k => i < 2 * lmax + 1 ∧ j < npsi ∧ k < mine.length)
          (fun i j k => cellV f pol s b lmax false j ((i : ℤ) - lmax) (mine.getD k 0)),
        (zero3 (2 * lmax + 1) npsi mine.length).modif (fun i j k => i < 2 * lmax + 1 ∧ j < npsi ∧ k < mine.length)
          (fun i j k => cellV f pol s b lmax true j ((i : ℤ) - lmax) (mine.getD k 0))) := by
  unfold accumulateR
  set g1 : ℕ → ℕ → ℕ → ℂ → ℂ := fun i j k => cellV f pol s b lmax false j ((i : ℤ) - lmax) (mine.getD k 0)
  set g2 : ℕ → ℕ → ℕ → ℂ → ℂ := fun i j k => cellV f pol s b lmax true j ((i : ℤ) - lmax) (mine.getD k 0)
  rw [forL_modif2 (n1 := 2 * lmax + 1) (n2 := npsi) (n3 := mine.length) (P := fun x i j k => i < 2 * lmax + 1 ∧ j = x ∧ k < mine.length)
    (g := g1) (g' := g2) _ List.nodup_range ?_ ?_ _ _ ⟨rfl, rfl, rfl⟩ ⟨rfl, rfl, rfl⟩]
  · refine congrArg ok (Prod.ext ?_ ?_) <;>
    · apply modif_congr
      intro i j k
      simp only [List.mem_range]
      constructor
      · rintro ⟨x, hx, a, rfl, c⟩; exact ⟨a, hx, c⟩
      · rintro ⟨a, b, c⟩; exact ⟨j, b, a, rfl, c⟩
  · intro mb hmb C D hC hD
    have hmb' := List.mem_range.mp hmb
    have hmem : ∀ x, x ∈ order mb ↔ x < lmax + 1 := fun x => by rw [(ho mb).mem_iff, List.mem_range]
    rw [forL_modif2 (n1 := 2 * lmax + 1) (n2 := npsi) (n3 := mine.length)
      (P := fun x i j k => (i = lmax + x ∨ i = lmax - x) ∧ (x ≤ lmax ∧ j = mb ∧ k < mine.length))
      (g := g1) (g' := g2) _ ((ho mb).nodup_iff.mpr List.nodup_range) ?_ ?_ C D hC hD]
    · refine congrArg ok (Prod.ext ?_ ?_) <;>
      · apply modif_congr
        intro i j k
        constructor
        · rintro ⟨x, hx, a, b, c, d⟩; exact ⟨by omega, c, d⟩
        · rintro ⟨a, b, c⟩
          exact ⟨((i : ℤ) - lmax).natAbs, (hmem _).mpr (by omega), by omega, by omega, b, c⟩
    · intro m hm C D hC hD
      have hm' := (hmem m).mp hm
      rw [forL_modif2 (n1 := 2 * lmax + 1) (n2 := npsi) (n3 := mine.length)
        (P := fun x i j k => (i = lmax + m ∨ i = lmax - m) ∧ j = mb ∧ k = x)
        (g := g1) (g' := g2) _ List.nodup_range ?_ ?_ C D hC hD]
      · refine congrArg ok (Prod.ext ?_ ?_) <;>
        · apply modif_congr
          intro i j k
          simp only [List.mem_range]
          constructor
          · rintro ⟨x, hx, a, b, rfl⟩; exact ⟨a, by omega, b, hx⟩
          · rintro ⟨a, _, b, c⟩; exact ⟨k, c, a, b, rfl⟩
      · intro lat hlat C D hC hD
        exact latBodyR_ok h hg (by omega) hmb' (List.mem_range.mp hlat) mine hC hD
      · rintro x y i j k ⟨_, _, a⟩ ⟨_, _, b⟩; rw [← a, ← b]
    · rintro x y i j k ⟨a, b, _⟩ ⟨a', b', _⟩; omega
  · rintro x y i j k ⟨_, a, _⟩ ⟨_, b, _⟩; rw [← a, ← b]

end Verif.Num
