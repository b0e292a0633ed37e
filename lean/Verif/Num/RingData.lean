import Verif.Num.Annulus
import Verif.Tod.Bounds

/-!
# Rings of the data cube: from the expansions to the doubles that are exchanged and interpolated

Links the kernel and the synthesis to the ring data used by the model of `convolve` (`Tod.Env.ring`).
-/

namespace Verif.Num
open Verif Res Finset

/-! ## the value of a ring does not depend on the other rings of the rank -/

theorem firstDeg_single {ovf : Res ℤ} {v : ℤ} (hovf : ovf = ok v) {lmax : ℕ} (h0 : 0 < lmax) (hL : lmax < 46341)
    {ths : List ℝ} {eps : ℝ} {m1 m2 : ℤ} (h1 : |m1| ≤ lmax) (h2 : |m2| ≤ lmax) {n : ℕ} (hn : n < ths.length) :
    firstDeg ovf lmax ths eps m1 m2 n = firstDeg ovf lmax [ths.getD n 0] eps m1 m2 0 := by
  obtain ⟨g, e, hT, hf⟩ := tables_mkGen (ths := ths) (eps := eps) h0
  obtain ⟨g1, e1, hT1, hP1⟩ := prepare_ok hovf hL hT (Or.inl hf) h1 h2
  obtain ⟨g', e', hT', hf'⟩ := tables_mkGen (ths := [ths.getD n 0]) (eps := eps) h0
  obtain ⟨g1', e1', hT1', hP1'⟩ := prepare_ok hovf hL hT' (Or.inl hf') h1 h2
  unfold firstDeg
  rw [e, e']
  simp only [ok_bind]
  rw [e1, e1']
  simp only [ok_bind]
  rw [wcalc_congr' hT1 hT1' hP1 hP1' (n := n) (n' := ((0 : ℕ) : ℤ)) (by
    rw [rd_nat hn, rd_nat (by simp)]
    simp [List.getD_eq_getElem?_getD, hn])]

theorem kfirst_single {ovf : Res ℤ} {v : ℤ} (hovf : ovf = ok v) {lmax : ℕ} (h0 : 0 < lmax) (hL : lmax < 46341)
    {ths : List ℝ} {eps : ℝ} {mb m : ℕ} (h1 : mb ≤ lmax) (h2 : m ≤ lmax) {n : ℕ} (hn : n < ths.length) :
    kfirst ovf lmax ths eps mb m n = kfirst ovf lmax [ths.getD n 0] eps mb m 0 := by
  have a1 : |(mb : ℤ)| ≤ lmax := by rw [abs_of_nonneg (by omega)]; omega
  have a2 : |(m : ℤ)| ≤ lmax := by rw [abs_of_nonneg (by omega)]; omega
  unfold kfirst
  rw [firstDeg_single hovf h0 hL a1 a2 hn, firstDeg_single hovf h0 hL a1 (by rw [abs_neg]; exact a2) hn]

/-! ## cubes -/

/-- Orders in which the parallel loops run (kernel and the three loops of each synthesis). -/
structure Orders where
  sc : Sched
  A1 : List ℕ
  B1 : List ℕ
  C1 : List ℕ
  A2 : List ℕ
  B2 : List ℕ
  C2 : List ℕ

/-- Every loop runs every iteration exactly once. -/
structure Orders.OK (o : Orders) (lmax npsi : ℕ) : Prop where
  sc : o.sc.OK lmax
  A1 : o.A1.Perm (List.range (2 * lmax + 1))
  B1 : o.B1.Perm (List.range npsi)
  C1 : o.C1.Perm (List.range (2 * lmax + 1))
  A2 : o.A2.Perm (List.range (2 * lmax + 1))
  B2 : o.B2.Perm (List.range npsi)
  C2 : o.C2.Perm (List.range (2 * lmax + 1))

/-- Local part of `conviqt_hemiscm` (src/conviqt_math.cpp:670-793) and `conviqt_hemiscm_pol` (:922-1053) for the
colatitudes `ths` owned by the rank: accumulation and the two calls of `todAnnulus`. -/
noncomputable def kernelCubes (ovf : Res ℤ) (o : Orders) (fft : List ℂ → List ℂ) (pol : Bool) (s b : Exps) (lmax npsi : ℕ)
    (ths : List ℝ) (eps : ℝ) : Res (A3 ℂ × A3 ℂ) := do
  let C ← accumulate ovf o.sc pol s b lmax npsi ths eps
  let T1 ← todAnnulus o.A1 o.B1 o.C1 fft lmax npsi ths.length C.1
  let T2 ← todAnnulus o.A2 o.B2 o.C2 fft lmax npsi ths.length C.2
  ok (T1, T2)

/-- The doubles of ring number `pos` in the order of transmission, src/conviqt_math.cpp:1135-1144. -/
noncomputable def pack (nphi npsi : ℕ) (T : A3 ℂ) (pos : ℕ) : List ℝ :=
  (List.range nphi).flatMap (fun iphi => (List.range npsi).flatMap (fun ipsi => [(T.val iphi ipsi pos).re, (T.val iphi ipsi pos).im]))

/-- Value of ring sample `p` for beam order `k` from the sums over degrees. -/
noncomputable def ringVal (ovf : Res ℤ) (pol : Bool) (s b : Exps) (lmax : ℕ) (eps θ ϑ : ℝ) (p k : ℕ) : ℂ :=
  Complex.exp (Complex.I * (Real.pi / 2) * k) * ∑ m ∈ Icc (-(lmax : ℤ)) lmax,
    (∑ l ∈ Ico (kfirst ovf lmax [θ] eps k m.natAbs 0) (lmax + 1), kterm pol s b l m k ϑ) * Complex.exp (Complex.I * m * phiK lmax p)

/-- Colatitude at which the d-functions are evaluated for the ring at `θ`. -/
noncomputable def angleOf (south : Bool) (θ : ℝ) : ℝ := if south then Real.pi - genAngle θ else genAngle θ

theorem kernelCubes_ok {ovf : Res ℤ} {v : ℤ} (hovf : ovf = ok v) {pol : Bool} {s b : Exps} {lmax npsi : ℕ}
    (h : KernelOK pol s b lmax npsi) {o : Orders} (ho : o.OK lmax npsi) {fft : List ℂ → List ℂ}
    (hf : IsBackward fft (2 * lmax + 1)) (ths : List ℝ) (eps : ℝ) :
    ∃ T : Bool → A3 ℂ, kernelCubes ovf o fft pol s b lmax npsi ths eps = ok (T false, T true) ∧
      ∀ (south : Bool) (p k lat : ℕ), p < 2 * lmax + 1 → k < npsi → ∀ hl : lat < ths.length,
        (T south).val p k lat = ringVal ovf pol s b lmax eps (ths.getD lat 0) (angleOf south (ths.getD lat 0)) p k := by
  have hn := h.npsi_le
  obtain ⟨T1, e1, _, v1⟩ := C18_synthesis hf ho.A1 ho.B1 ho.C1 hn (nlat := ths.length)
    (C := (zero3 (2 * lmax + 1) npsi ths.length).plus (dall ovf pol s b lmax npsi ths eps id)) ⟨rfl, rfl, rfl⟩
  obtain ⟨T2, e2, _, v2⟩ := C18_synthesis hf ho.A2 ho.B2 ho.C2 hn (nlat := ths.length)
    (C := (zero3 (2 * lmax + 1) npsi ths.length).plus (dall ovf pol s b lmax npsi ths eps (Real.pi - ·))) ⟨rfl, rfl, rfl⟩
  refine ⟨fun south => if south then T2 else T1, ?_, ?_⟩
  · unfold kernelCubes
    rw [accumulate_ok hovf h ho.sc, ok_bind]
    dsimp only
    rw [e1, ok_bind, e2, ok_bind]
    rfl
  · intro south p k lat hp hk hl
    have key : ∀ (f : ℝ → ℝ), ∑ m ∈ Icc (-(lmax : ℤ)) lmax,
        ((zero3 (2 * lmax + 1) npsi ths.length).plus (dall ovf pol s b lmax npsi ths eps f)).val (m + lmax).toNat k lat *
          Complex.exp (Complex.I * m * phiK lmax p) =
        ∑ m ∈ Icc (-(lmax : ℤ)) lmax, (∑ l ∈ Ico (kfirst ovf lmax [ths.getD lat 0] eps k m.natAbs 0) (lmax + 1),
          kterm pol s b l m k (f (genAngle (ths.getD lat 0)))) * Complex.exp (Complex.I * m * phiK lmax p) := by
      intro f
      apply Finset.sum_congr rfl
      intro m hm
      rw [Finset.mem_Icc] at hm
      congr 1
      show 0 + dall ovf pol s b lmax npsi ths eps f _ _ _ = _
      rw [zero_add, dall_apply (abs_le.mpr hm) hk hl, kfirst_single hovf h.pos h.lt (by omega) (by omega) hl]
    cases south with
    | false =>
      simp only [Bool.false_eq_true, if_false]
      rw [v1 p k lat hp hk hl, key id]; rfl
    | true =>
      simp only [if_true]
      rw [v2 p k lat hp hk hl, key]; rfl

/-! ## packed rings -/

theorem flatMap_const {α β : Type} (f : α → List β) (d : β) {w : ℕ} : ∀ (xs : List α), (∀ x ∈ xs, (f x).length = w) →
    (xs.flatMap f).length = xs.length * w ∧
    ∀ i (hi : i < xs.length) j, j < w → (xs.flatMap f).getD (i * w + j) d = (f xs[i]).getD j d := by
  intro xs
  induction xs with
  | nil => intro _; exact ⟨by simp, fun i hi => absurd hi (by simp)⟩
  | cons x xs ih =>
    intro hw
    obtain ⟨l1, l2⟩ := ih (fun y hy => hw y (by simp [hy]))
    have hx := hw x (by simp)
    refine ⟨by rw [List.flatMap_cons, List.length_append, l1, hx, List.length_cons]; ring, ?_⟩
    intro i hi j hj
    rw [List.flatMap_cons]
    cases i with
    | zero =>
      simp only [Nat.zero_mul, Nat.zero_add, List.getElem_cons_zero, List.getD_eq_getElem?_getD]
      rw [List.getElem?_append_left (by omega)]
    | succ i =>
      have hi' : i < xs.length := by simpa using hi
      have := l2 i hi' j hj
      rw [List.getElem_cons_succ, ← this, List.getD_eq_getElem?_getD, List.getD_eq_getElem?_getD,
        List.getElem?_append_right (by rw [hx]; nlinarith)]
      congr 2
      rw [hx, Nat.succ_mul]; omega

theorem pack_spec (nphi npsi : ℕ) (T : A3 ℂ) (pos : ℕ) :
    (pack nphi npsi T pos).length = nphi * npsi * 2 ∧
    ∀ p k, p < nphi → k < npsi → (pack nphi npsi T pos).getD (2 * (p * npsi + k)) 0 = (T.val p k pos).re ∧
      (pack nphi npsi T pos).getD (2 * (p * npsi + k) + 1) 0 = (T.val p k pos).im := by
  unfold pack
  have inner := fun iphi => flatMap_const (fun ipsi => [(T.val iphi ipsi pos).re, (T.val iphi ipsi pos).im]) 0 (w := 2)
    (List.range npsi) (fun _ _ => rfl)
  obtain ⟨o1, o2⟩ := flatMap_const (fun iphi => (List.range npsi).flatMap (fun ipsi =>
    [(T.val iphi ipsi pos).re, (T.val iphi ipsi pos).im])) 0 (w := npsi * 2) (List.range nphi)
    (fun x _ => by rw [(inner x).1]; simp)
  refine ⟨by rw [o1]; simp; ring, fun p k hp hk => ?_⟩
  have e1 : 2 * (p * npsi + k) = p * (npsi * 2) + (k * 2 + 0) := by ring
  have e2 : 2 * (p * npsi + k) + 1 = p * (npsi * 2) + (k * 2 + 1) := by ring
  rw [e2, e1, o2 p (by simpa using hp) _ (by omega), o2 p (by simpa using hp) _ (by omega), List.getElem_range,
    (inner p).2 k (by simpa using hk) 0 (by norm_num), (inner p).2 k (by simpa using hk) 1 (by norm_num)]
  simp

/-- The data of the ring at colatitude `θ`: what a rank owning only this ring computes. -/
noncomputable def ringOf (ovf : Res ℤ) (o : Orders) (fft : List ℂ → List ℂ) (pol : Bool) (s b : Exps) (c : Tod.Cfg) (eps : ℝ)
    (south : Bool) (θ : ℝ) : List ℝ :=
  match kernelCubes ovf o fft pol s b c.lmax c.npsi [θ] eps with
  | .ok T => pack c.nphi c.npsi (if south then T.2 else T.1) 0
  | _ => List.replicate c.bufsize 0

/-- What a rank computes for the rings `mine` it owns, in the order of transmission: colatitudes `itheta_to_beta1`
(src/conviqt_math.cpp:670-676, 922-928), accumulation, synthesis; any failure inside is a failure of the rank.  (An exception
in the parallel region, such as that of the generator for `lmax = 0`, cannot be caught by the caller in the compiled library: it
ends the process.) -/
noncomputable def kernelRings (ovf : Res ℤ) (o : Orders) (fft : List ℂ → List ℂ) (pol : Bool) (s b : Exps) (c : Tod.Cfg) (eps : ℝ)
    (mine : List ℕ) : Res (List (List ℝ) × List (List ℝ)) := do
  let T ← kernelCubes ovf o fft pol s b c.lmax c.npsi (mine.map (fun i : ℕ => Tod.ringTheta c i)) eps
  ok ((List.range mine.length).map (pack c.nphi c.npsi T.1), (List.range mine.length).map (pack c.nphi c.npsi T.2))

theorem pack_congr {nphi npsi : ℕ} {T T' : A3 ℂ} {pos pos' : ℕ}
    (h : ∀ p k, p < nphi → k < npsi → T.val p k pos = T'.val p k pos') : pack nphi npsi T pos = pack nphi npsi T' pos' := by
  unfold pack
  rw [List.flatMap_def, List.flatMap_def]
  congr 1
  apply List.map_congr_left
  intro p hp
  rw [List.flatMap_def, List.flatMap_def]
  congr 1
  apply List.map_congr_left
  intro k hk
  rw [h p k (List.mem_range.mp hp) (List.mem_range.mp hk)]

/-- The rings a rank computes do not depend on which other rings it owns, on its schedule or on the thread assignment:
for any list of owned rings, the packed cube consists of the rings `ringOf` at their colatitudes.
(With `kernelRings_eq` this discharges the assumption `kern` about the environment of `convolve`.) -/
theorem C10_rings_local {ovf : Res ℤ} {v : ℤ} (hovf : ovf = ok v) {pol : Bool} {s b : Exps} {c : Tod.Cfg}
    (h : KernelOK pol s b c.lmax c.npsi) {o o' : Orders} (ho : o.OK c.lmax c.npsi) (ho' : o'.OK c.lmax c.npsi)
    {fft : List ℂ → List ℂ} (hf : IsBackward fft c.nphi) (mine : List ℕ) (eps : ℝ) :
    ∃ T1 T2, kernelCubes ovf o fft pol s b c.lmax c.npsi (mine.map (fun i : ℕ => Tod.ringTheta c i)) eps = ok (T1, T2) ∧
      (List.range mine.length).map (pack c.nphi c.npsi T1) =
        mine.map (fun i : ℕ => ringOf ovf o' fft pol s b c eps false (Tod.ringTheta c i)) ∧
      (List.range mine.length).map (pack c.nphi c.npsi T2) =
        mine.map (fun i : ℕ => ringOf ovf o' fft pol s b c eps true (Tod.ringTheta c i)) := by
  obtain ⟨T, e, hv⟩ := kernelCubes_ok hovf h ho hf (mine.map (fun i : ℕ => Tod.ringTheta c i)) eps
  have key : ∀ south, (List.range mine.length).map (pack c.nphi c.npsi (T south)) =
        mine.map (fun i : ℕ => ringOf ovf o' fft pol s b c eps south (Tod.ringTheta c i)) := by
    intro south
    apply List.ext_getElem (by simp)
    intro i h1 h2
    have hi : i < mine.length := by simpa using h1
    simp only [List.getElem_map, List.getElem_range]
    obtain ⟨T', e', hv'⟩ := kernelCubes_ok hovf h ho' hf [Tod.ringTheta c (mine[i] : ℕ)] eps
    unfold ringOf
    rw [e']
    have : (if south = true then (T' false, T' true).2 else (T' false, T' true).1) = T' south := by cases south <;> rfl
    simp only [this]
    apply pack_congr
    intro p k hp hk
    rw [hv south p k i hp hk (by simpa using hi), hv' south p k 0 hp hk (by simp)]
    have : (mine.map (fun i : ℕ => Tod.ringTheta c i)).getD i 0 = Tod.ringTheta c (mine[i] : ℕ) := by
      rw [List.getD_eq_getElem?_getD, List.getElem?_map, List.getElem?_eq_getElem hi]; rfl
    rw [this]
    simp
  exact ⟨T false, T true, e, key false, key true⟩

/-- The assumption `kern` about the environment of `convolve` holds of the kernel. -/
theorem kernelRings_eq {ovf : Res ℤ} {v : ℤ} (hovf : ovf = ok v) {pol : Bool} {s b : Exps} {c : Tod.Cfg}
    (h : KernelOK pol s b c.lmax c.npsi) {o o' : Orders} (ho : o.OK c.lmax c.npsi) (ho' : o'.OK c.lmax c.npsi)
    {fft : List ℂ → List ℂ} (hf : IsBackward fft c.nphi) (mine : List ℕ) (eps : ℝ) :
    kernelRings ovf o fft pol s b c eps mine =
      ok (mine.map (fun i : ℕ => ringOf ovf o' fft pol s b c eps false (Tod.ringTheta c i)),
        mine.map (fun i : ℕ => ringOf ovf o' fft pol s b c eps true (Tod.ringTheta c i))) := by
  obtain ⟨T1, T2, e, h1, h2⟩ := C10_rings_local hovf h ho ho' hf mine eps
  unfold kernelRings
  rw [e, ok_bind]
  dsimp only
  rw [h1, h2]

/-- The doubles of a ring. -/
theorem ringOf_spec {ovf : Res ℤ} {v : ℤ} (hovf : ovf = ok v) {pol : Bool} {s b : Exps} {c : Tod.Cfg}
    (h : KernelOK pol s b c.lmax c.npsi) {o : Orders} (ho : o.OK c.lmax c.npsi) {fft : List ℂ → List ℂ}
    (hf : IsBackward fft c.nphi) (eps : ℝ) (south : Bool) (θ : ℝ) :
    (ringOf ovf o fft pol s b c eps south θ).length = c.bufsize ∧
    ∀ p k, p < c.nphi → k < c.npsi →
      (ringOf ovf o fft pol s b c eps south θ).getD (2 * (p * c.npsi + k)) 0 =
        (ringVal ovf pol s b c.lmax eps θ (angleOf south θ) p k).re ∧
      (ringOf ovf o fft pol s b c eps south θ).getD (2 * (p * c.npsi + k) + 1) 0 =
        (ringVal ovf pol s b c.lmax eps θ (angleOf south θ) p k).im := by
  obtain ⟨T, e, hv⟩ := kernelCubes_ok hovf h ho hf [θ] eps
  have : ringOf ovf o fft pol s b c eps south θ = pack c.nphi c.npsi (T south) 0 := by
    unfold ringOf; rw [e]; cases south <;> rfl
  rw [this]
  obtain ⟨l, g⟩ := pack_spec c.nphi c.npsi (T south) 0
  refine ⟨l, fun p k hp hk => ?_⟩
  rw [(g p k hp hk).1, (g p k hp hk).2, hv south p k 0 hp hk (by simp)]
  exact ⟨rfl, rfl⟩

end Verif.Num
