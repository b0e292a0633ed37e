import Verif.Num.RKernelProof

/-!
# The ring synthesis in floating point: what is computed
-/

namespace Verif.Num
open Verif Res Finset
open scoped Classical

theorem annulusAR_ok {f : FKern} {order : List ℕ} {lmax npsi nlat : ℕ} (hc : f.cs.length = 2 * lmax + 1) (hs : f.sn.length = 2 * lmax + 1)
    (ho : order.Perm (List.range (2 * lmax + 1))) {C : A3 ℂ} (hC : C.Dim (2 * lmax + 1) npsi nlat) :
    annulusAR f order npsi nlat C = ok (C.modif (fun i j k => i < 2 * lmax + 1 ∧ j < npsi ∧ k < nlat)
      (fun i _ _ => rotR f (f.cs.getD i 0) (f.sn.getD i 0))) := by
  unfold annulusAR
  have hnd : order.Nodup := ho.nodup_iff.mpr List.nodup_range
  have hmem : ∀ x, x ∈ order ↔ x < 2 * lmax + 1 := fun x => by rw [ho.mem_iff, List.mem_range]
  rw [forL_modif (n1 := 2 * lmax + 1) (n2 := npsi) (n3 := nlat) (P := fun x i j k => i = x ∧ j < npsi ∧ k < nlat)
    (g := fun i _ _ => rotR f (f.cs.getD i 0) (f.sn.getD i 0)) order hnd ?_ ?_ C hC]
  · congr 1
    apply modif_congr
    intro i j k
    constructor
    · rintro ⟨x, hx, rfl, h2, h3⟩; exact ⟨(hmem _).mp hx, h2, h3⟩
    · rintro ⟨h1, h2, h3⟩; exact ⟨i, (hmem _).mpr h1, rfl, h2, h3⟩
  · intro x hx D hD
    have hx' := (hmem x).mp hx
    rw [rd_getD (by omega), ok_bind, rd_getD (by omega), ok_bind]
    rw [forL_modif (n1 := 2 * lmax + 1) (n2 := npsi) (n3 := nlat) (P := fun y i j k => i = x ∧ j = y ∧ k < nlat)
      (g := fun i _ _ => rotR f (f.cs.getD i 0) (f.sn.getD i 0)) _ List.nodup_range ?_ ?_ D hD]
    · congr 1
      apply modif_congr
      intro i j k
      simp only [List.mem_range]
      constructor
      · rintro ⟨y, hy, h1, rfl, h3⟩; exact ⟨h1, hy, h3⟩
      · rintro ⟨h1, h2, h3⟩; exact ⟨j, h2, h1, rfl, h3⟩
    · intro y hy E hE
      have hy' := List.mem_range.mp hy
      rw [forL_modif (n1 := 2 * lmax + 1) (n2 := npsi) (n3 := nlat) (P := fun w i j k => i = x ∧ j = y ∧ k = w)
        (g := fun i _ _ => rotR f (f.cs.getD i 0) (f.sn.getD i 0)) _ List.nodup_range ?_ ?_ E hE]
      · congr 1
        apply modif_congr
        intro i j k
        simp only [List.mem_range]
        constructor
        · rintro ⟨w, hw, h1, h2, rfl⟩; exact ⟨h1, h2, hw⟩
        · rintro ⟨h1, h2, h3⟩; exact ⟨k, h3, h1, h2, rfl⟩
      · intro w hw G hG
        exact upd3_modif hG hx' hy' (List.mem_range.mp hw) _ _ rfl
      · rintro a b i j k ⟨_, _, h⟩ ⟨_, _, h'⟩; rw [← h, ← h']
    · rintro a b i j k ⟨_, h, _⟩ ⟨_, h', _⟩; rw [← h, ← h']
  · rintro a b i j k ⟨h, _, _⟩ ⟨h', _, _⟩; rw [← h, ← h']

theorem annulusB_gen {order : List ℕ} {fft : List ℂ → List ℂ} {lmax npsi nlat : ℕ}
    (hf : ∀ xs : List ℂ, xs.length = 2 * lmax + 1 → (fft xs).length = 2 * lmax + 1)
    (ho : order.Perm (List.range npsi)) {C T : A3 ℂ} (hC : C.Dim (2 * lmax + 1) npsi nlat) (hT : T.Dim (2 * lmax + 1) npsi nlat) :
    annulusB order fft lmax nlat C T = ok (T.modif (fun i j k => i < 2 * lmax + 1 ∧ j < npsi ∧ k < nlat)
      (fun i j k _ => (fft ((List.range (2 * lmax + 1)).map (fun ii => C.val ii j k))).getD i 0)) := by
  unfold annulusB
  have hnd : order.Nodup := ho.nodup_iff.mpr List.nodup_range
  have hmem : ∀ x, x ∈ order ↔ x < npsi := fun x => by rw [ho.mem_iff, List.mem_range]
  set g : ℕ → ℕ → ℕ → ℂ → ℂ := fun i j k _ => (fft ((List.range (2 * lmax + 1)).map (fun ii => C.val ii j k))).getD i 0 with hg
  rw [forL_modif (n1 := 2 * lmax + 1) (n2 := npsi) (n3 := nlat) (P := fun x i j k => i < 2 * lmax + 1 ∧ j = x ∧ k < nlat)
    (g := g) order hnd ?_ ?_ T hT]
  · congr 1
    apply modif_congr
    intro i j k
    constructor
    · rintro ⟨x, hx, h1, rfl, h3⟩; exact ⟨h1, (hmem _).mp hx, h3⟩
    · rintro ⟨h1, h2, h3⟩; exact ⟨j, (hmem _).mpr h2, h1, rfl, h3⟩
  · intro x hx D hD
    have hx' := (hmem x).mp hx
    rw [forL_modif (n1 := 2 * lmax + 1) (n2 := npsi) (n3 := nlat) (P := fun y i j k => i < 2 * lmax + 1 ∧ j = x ∧ k = y)
      (g := g) _ List.nodup_range ?_ ?_ D hD]
    · congr 1
      apply modif_congr
      intro i j k
      simp only [List.mem_range]
      constructor
      · rintro ⟨y, hy, h1, h2, rfl⟩; exact ⟨h1, h2, hy⟩
      · rintro ⟨h1, h2, h3⟩; exact ⟨k, h3, h1, h2, rfl⟩
    · intro y hy E hE
      have hy' := List.mem_range.mp hy
      rw [mapM_range_ok (v := fun ii => C.val ii x y) (fun ii hii => by
        unfold rd3
        rw [if_pos ⟨⟨by omega, by rw [hC.1]; exact_mod_cast hii⟩, ⟨by omega, by rw [hC.2.1]; exact_mod_cast hx'⟩,
          ⟨by omega, by rw [hC.2.2]; exact_mod_cast hy'⟩⟩]
        simp), ok_bind]
      dsimp only
      have hl := hf ((List.range (2 * lmax + 1)).map (fun ii => C.val ii x y)) (by simp)
      rw [forL_modif (n1 := 2 * lmax + 1) (n2 := npsi) (n3 := nlat) (P := fun w i j k => i = w ∧ j = x ∧ k = y)
        (g := g) _ List.nodup_range ?_ ?_ E hE]
      · congr 1
        apply modif_congr
        intro i j k
        simp only [List.mem_range]
        constructor
        · rintro ⟨w, hw, rfl, h2, h3⟩; exact ⟨hw, h2, h3⟩
        · rintro ⟨h1, h2, h3⟩; exact ⟨i, h1, rfl, h2, h3⟩
      · intro w hw G hG
        have hw' := List.mem_range.mp hw
        rw [rd_nat (by rw [hl]; exact hw'), ok_bind]
        apply upd3_modif hG hw' hx' hy'
        funext z
        simp only [hg]
        rw [List.getD_eq_getElem?_getD, List.getElem?_eq_getElem (by rw [hl]; exact hw'), Option.getD_some]
      · rintro a b i j k ⟨h, _, _⟩ ⟨h', _, _⟩; rw [← h, ← h']
    · rintro a b i j k ⟨_, _, h⟩ ⟨_, _, h'⟩; rw [← h, ← h']
  · rintro a b i j k ⟨_, h, _⟩ ⟨_, h', _⟩; rw [← h, ← h']

theorem annulusCR_ok {f : FKern} {order : List ℕ} {lmax npsi nlat : ℕ} (hc : f.cs.length = 2 * lmax + 1) (hs : f.sn.length = 2 * lmax + 1)
    (hc0 : f.cs0.length = 2 * lmax + 1) (hs0 : f.sn0.length = 2 * lmax + 1)
    (ho : order.Perm (List.range (2 * lmax + 1))) (hn : npsi ≤ lmax + 1) {T : A3 ℂ} (hT : T.Dim (2 * lmax + 1) npsi nlat) :
    annulusCR f order lmax npsi nlat T = ok (T.modif (fun i j k => i < 2 * lmax + 1 ∧ j < npsi ∧ k < nlat)
      (fun i j _ z => rotR f (f.cs.getD (j + lmax) 0) (f.sn.getD (j + lmax) 0) (rotR f (f.cs0.getD i 0) (f.sn0.getD i 0) z))) := by
  unfold annulusCR
  have hnd : order.Nodup := ho.nodup_iff.mpr List.nodup_range
  have hmem : ∀ x, x ∈ order ↔ x < 2 * lmax + 1 := fun x => by rw [ho.mem_iff, List.mem_range]
  set g : ℕ → ℕ → ℕ → ℂ → ℂ := fun i j _ z =>
    rotR f (f.cs.getD (j + lmax) 0) (f.sn.getD (j + lmax) 0) (rotR f (f.cs0.getD i 0) (f.sn0.getD i 0) z)
  rw [forL_modif (n1 := 2 * lmax + 1) (n2 := npsi) (n3 := nlat) (P := fun x i j k => i = x ∧ j < npsi ∧ k < nlat)
    (g := g) order hnd ?_ ?_ T hT]
  · congr 1
    apply modif_congr
    intro i j k
    constructor
    · rintro ⟨x, hx, rfl, h2, h3⟩; exact ⟨(hmem _).mp hx, h2, h3⟩
    · rintro ⟨h1, h2, h3⟩; exact ⟨i, (hmem _).mpr h1, rfl, h2, h3⟩
  · intro x hx D hD
    have hx' := (hmem x).mp hx
    rw [rd_getD (by omega), ok_bind, rd_getD (by omega), ok_bind]
    rw [forL_modif (n1 := 2 * lmax + 1) (n2 := npsi) (n3 := nlat) (P := fun y i j k => i = x ∧ j = y ∧ k < nlat)
      (g := g) _ List.nodup_range ?_ ?_ D hD]
    · congr 1
      apply modif_congr
      intro i j k
      simp only [List.mem_range]
      constructor
      · rintro ⟨y, hy, h1, rfl, h3⟩; exact ⟨h1, hy, h3⟩
      · rintro ⟨h1, h2, h3⟩; exact ⟨j, h2, h1, rfl, h3⟩
    · intro y hy E hE
      have hy' := List.mem_range.mp hy
      rw [show ((y : ℤ) + lmax) = ((y + lmax : ℕ) : ℤ) by push_cast; rfl, rd_getD (by omega), ok_bind, rd_getD (by omega), ok_bind]
      rw [forL_modif (n1 := 2 * lmax + 1) (n2 := npsi) (n3 := nlat) (P := fun w i j k => i = x ∧ j = y ∧ k = w)
        (g := g) _ List.nodup_range ?_ ?_ E hE]
      · congr 1
        apply modif_congr
        intro i j k
        simp only [List.mem_range]
        constructor
        · rintro ⟨w, hw, h1, h2, rfl⟩; exact ⟨h1, h2, hw⟩
        · rintro ⟨h1, h2, h3⟩; exact ⟨k, h3, h1, h2, rfl⟩
      · intro w hw G hG
        exact upd3_modif hG hx' hy' (List.mem_range.mp hw) _ _ rfl
      · rintro a b i j k ⟨_, _, h⟩ ⟨_, _, h'⟩; rw [← h, ← h']
    · rintro a b i j k ⟨_, h, _⟩ ⟨_, h', _⟩; rw [← h, ← h']
  · rintro a b i j k ⟨h, _, _⟩ ⟨h', _, _⟩; rw [← h, ← h']

/-- Sizes of tables and transform. -/
structure SynthShape (f : FKern) (lmax : ℕ) : Prop where
  cs : f.cs.length = 2 * lmax + 1
  sn : f.sn.length = 2 * lmax + 1
  cs0 : f.cs0.length = 2 * lmax + 1
  sn0 : f.sn0.length = 2 * lmax + 1
  fft : ∀ xs : List ℂ, xs.length = 2 * lmax + 1 → (f.fft xs).length = 2 * lmax + 1

/-- Sample `p` of a ring from its coefficients `C` (index `m + lmax`), beam order `k`. -/
noncomputable def synthV (f : FKern) (lmax : ℕ) (C : ℕ → ℂ) (p k : ℕ) : ℂ :=
  rotR f (f.cs.getD (k + lmax) 0) (f.sn.getD (k + lmax) 0) (rotR f (f.cs0.getD p 0) (f.sn0.getD p 0)
    ((f.fft ((List.range (2 * lmax + 1)).map (fun ii => rotR f (f.cs.getD ii 0) (f.sn.getD ii 0) (C ii)))).getD p 0))

theorem todAnnulusR_ok {f : FKern} {oA oB oC : List ℕ} {lmax npsi nlat : ℕ} (hS : SynthShape f lmax)
    (hA : oA.Perm (List.range (2 * lmax + 1))) (hB : oB.Perm (List.range npsi)) (hCo : oC.Perm (List.range (2 * lmax + 1)))
    (hn : npsi ≤ lmax + 1) {C : A3 ℂ} (hC : C.Dim (2 * lmax + 1) npsi nlat) :
    ∃ T, todAnnulusR f oA oB oC lmax npsi nlat C = ok T ∧ ∀ p k lat : ℕ, p < 2 * lmax + 1 → k < npsi → lat < nlat →
      T.val p k lat = synthV f lmax (fun ii => C.val ii k lat) p k := by
  unfold todAnnulusR
  rw [annulusAR_ok hS.cs hS.sn hA hC, ok_bind,
    annulusB_gen hS.fft hB (A3.modif_dim hC _ _) (T := zero3 (2 * lmax + 1) npsi nlat) ⟨rfl, rfl, rfl⟩, ok_bind,
    annulusCR_ok hS.cs hS.sn hS.cs0 hS.sn0 (nlat := nlat) hCo hn (A3.modif_dim (C := zero3 (2 * lmax + 1) npsi nlat) ⟨rfl, rfl, rfl⟩ _ _)]
  refine ⟨_, rfl, fun p k lat hp hk hlat => ?_⟩
  have hin : p < 2 * lmax + 1 ∧ k < npsi ∧ lat < nlat := ⟨hp, hk, hlat⟩
  simp only [A3.modif, if_pos hin]
  unfold synthV
  congr 4
  apply List.map_congr_left
  intro ii hii
  rw [if_pos ⟨List.mem_range.mp hii, hk, hlat⟩]

/-- A ring as computed: number `it`. -/
noncomputable def ringV (f : FKern) (pol : Bool) (s b : Exps) (c : Tod.Cfg) (south : Bool) (it : ℕ) : List ℝ :=
  pack c.nphi c.npsi ⟨c.nphi, c.npsi, 1, fun p k _ =>
    synthV f c.lmax (fun ii => cellV f pol s b c.lmax south k ((ii : ℤ) - c.lmax) it 0) p k⟩ 0

theorem synthV_congr {f : FKern} {lmax : ℕ} {C C' : ℕ → ℂ} (h : ∀ ii < 2 * lmax + 1, C ii = C' ii) (p k : ℕ) :
    synthV f lmax C p k = synthV f lmax C' p k := by
  unfold synthV
  congr 4
  apply List.map_congr_left
  intro ii hii
  rw [h ii (List.mem_range.mp hii)]

/-- The rings a rank computes in floating point do not depend on its other rings, nor on the order in which the iterations run. -/
theorem kernelRingsR_ok {f : FKern} {pol : Bool} {s b : Exps} {c : Tod.Cfg} (h : KernelOK pol s b c.lmax c.npsi)
    (hg : GenShape f c.lmax c.npsi) (hS : SynthShape f c.lmax) {o : Orders} (ho : o.OK c.lmax c.npsi) (mine : List ℕ) :
    kernelRingsR f o pol s b c mine = ok (mine.map (ringV f pol s b c false), mine.map (ringV f pol s b c true)) := by
  unfold kernelRingsR
  rw [accumulateR_ok h hg ho.sc, ok_bind]
  dsimp only
  set C1 := (zero3 (2 * c.lmax + 1) c.npsi mine.length).modif (fun i j k => i < 2 * c.lmax + 1 ∧ j < c.npsi ∧ k < mine.length)
          (fun i j k => cellV f pol s b c.lmax false j ((i : ℤ) - c.lmax) (mine.getD k 0)) with hC1
  set C2 := (zero3 (2 * c.lmax + 1) c.npsi mine.length).modif (fun i j k => i < 2 * c.lmax + 1 ∧ j < c.npsi ∧ k < mine.length)
          (fun i j k => cellV f pol s b c.lmax true j ((i : ℤ) - c.lmax) (mine.getD k 0)) with hC2
  obtain ⟨T1, e1, v1⟩ := todAnnulusR_ok hS ho.A1 ho.B1 ho.C1 h.npsi_le (C := C1) (nlat := mine.length) ⟨rfl, rfl, rfl⟩
  obtain ⟨T2, e2, v2⟩ := todAnnulusR_ok hS ho.A2 ho.B2 ho.C2 h.npsi_le (C := C2) (nlat := mine.length) ⟨rfl, rfl, rfl⟩
  rw [e1, ok_bind, e2, ok_bind]
  have key : ∀ (south : Bool) (T C : A3 ℂ), C = (zero3 (2 * c.lmax + 1) c.npsi mine.length).modif
        (fun i j k => i < 2 * c.lmax + 1 ∧ j < c.npsi ∧ k < mine.length)
        (fun i j k => cellV f pol s b c.lmax south j ((i : ℤ) - c.lmax) (mine.getD k 0)) →
      (∀ p k lat : ℕ, p < 2 * c.lmax + 1 → k < c.npsi → lat < mine.length → T.val p k lat = synthV f c.lmax (fun ii => C.val ii k lat) p k) →
      (List.range mine.length).map (pack c.nphi c.npsi T) = mine.map (ringV f pol s b c south) := by
    intro south T C hC hT
    apply List.ext_getElem (by simp)
    intro i h1 h2
    have hi : i < mine.length := by simpa using h1
    simp only [List.getElem_map, List.getElem_range]
    unfold ringV
    apply pack_congr
    intro p k hp hk
    have hp' : p < 2 * c.lmax + 1 := hp
    rw [hT p k i hp' hk hi]
    apply synthV_congr
    intro ii hii
    rw [hC]
    simp only [A3.modif, if_pos (show ii < 2 * c.lmax + 1 ∧ k < c.npsi ∧ i < mine.length from ⟨hii, hk, hi⟩)]
    have : mine.getD i 0 = mine[i] := by simp [List.getD, hi]
    rw [this]
    rfl
  rw [key false T1 C1 hC1 v1, key true T2 C2 hC2 v2]

end Verif.Num
