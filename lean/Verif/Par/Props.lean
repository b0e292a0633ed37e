import Verif.Par.KernRegion

/-!
# C74: the threads of the kernel never race, and any number of them computes the same

The regions are executed by a team of `n` threads, one memory access at a time, in any interleaving.  `n` is the value of
`OMP_NUM_THREADS` (or whatever the runtime provides) and may differ from region to region.
-/

namespace Verif.Par
open Verif Res

/-- What every thread starts with in `conviqt_hemiscm`, src/conviqt_math.cpp:707: two generators. -/
noncomputable def thread0 (lmax : ℕ) (g : Num.Gen) : Num.TS := ⟨g, g, List.replicate (lmax + 1) 0, List.replicate (lmax + 1) 0⟩

/-- What every thread starts with in `todAnnulus`, src/conviqt_math.cpp:1199: `Cmsky`. -/
noncomputable def cmsky0 (lmax : ℕ) : List ℂ := List.replicate (2 * lmax + 1) 0

/-- `schedule(static, 8)` for every loop of the first region, src/conviqt_math.cpp:715, 781. -/
def ompKern (n lmax npsi : ℕ) : List (Fin n → List ℕ) :=
  List.replicate npsi (fun t : Fin n => static 8 (lmax + 1) n t) ++ [fun t : Fin n => static 8 (2 * lmax + 1) n t]

/-- `schedule(static, 8)`, `(static, 1)`, `(static, 8)`: src/conviqt_math.cpp:1202, 1222, 1236. -/
def ompAnn (n lmax npsi : ℕ) : List (Fin n → List ℕ) :=
  [fun t => static 8 (2 * lmax + 1) n t, fun t => static 1 npsi n t, fun t => static 8 (2 * lmax + 1) n t]

/-- The dimensions of the four cubes, src/conviqt_math.cpp:682-685. -/
def dims (lmax npsi nlat : ℕ) : Dims := ⟨2 * lmax + 1, npsi, nlat⟩

/-- In memory `m` the cube `a` has the elements of `C`. -/
def Holds (D : Dims) (m : Cell → ℝ) (a : Arr) (C : Num.A3 ℂ) : Prop :=
  ∀ i j k, i < D.n1 → j < D.n2 → k < D.n3 → m (.cub a i j k false) = (C.val i j k).re ∧ m (.cub a i j k true) = (C.val i j k).im

/-- The tables are filled. -/
def Tables (lmax : ℕ) (m : Cell → ℝ) : Prop :=
  ∀ i, i < 2 * lmax + 1 → m (.cs i) = csV lmax i ∧ m (.sn i) = snV lmax i ∧ m (.cs0 i) = cs0V lmax i ∧ m (.sn0 i) = sn0V lmax i

/-! ## lemmas -/

theorem agree_put {D : Dims} {m m' : Cell → ℝ} {a : Arr} {C : Num.A3 ℂ} (h : Holds D m a C) (hm : ∀ l, l ∉ junk D → m l = m' l) :
    ∀ l, l ∉ junk D → m l = put m' a C l := by
  intro l hl
  cases l with
  | cub b i j k im =>
    have hr : i < D.n1 ∧ j < D.n2 ∧ k < D.n3 := by
      by_contra hc
      exact hl hc
    unfold put
    dsimp only
    split
    · rename_i hb
      subst hb
      have := h i j k hr.1 hr.2.1 hr.2.2
      cases im
      · exact this.1
      · exact this.2
    · exact hm _ hl
  | _ => exact hm _ hl

theorem holds_cube {D : Dims} {m m' : Cell → ℝ} (hm : ∀ l, l ∉ junk D → m l = m' l) (a : Arr) : Holds D m a (cube D m' a) := by
  intro i j k hi hj hk
  have hn : ∀ im, Cell.cub a i j k im ∉ junk D := fun im h => h ⟨hi, hj, hk⟩
  exact ⟨hm _ (hn _), hm _ (hn _)⟩

theorem static_deals_kern (clk : ℝ) (D : Dims) (ovf : Res ℤ) (pol : Bool) (s b : Num.Exps) (lmax npsi nlat : ℕ) {n : ℕ} (hn : 0 < n) :
    Deals (kernRegion clk D ovf pol s b lmax npsi nlat) (ompKern n lmax npsi) := by
  unfold kernRegion ompKern Deals
  refine List.rel_append ?_ (List.Forall₂.cons (static_dealt hn) .nil)
  have : ∀ xs : List ℕ, List.Forall₂ (fun (lp : Loop Cell ℝ Num.TS) (d : Fin n → List ℕ) => Dealt d lp.iters)
      (xs.map (kernLoop clk D ovf pol s b lmax nlat)) (List.replicate xs.length (fun t : Fin n => static 8 (lmax + 1) n t)) := by
    intro xs
    induction xs with
    | nil => exact .nil
    | cons x xs ih => exact .cons (static_dealt hn) ih
  simpa using this (List.range npsi)

theorem static_deals_ann (D : Dims) (a : Pair) (fft : List ℂ → List ℂ) (lmax npsi nlat : ℕ) {n : ℕ} (hn : 0 < n) :
    Deals (annRegion D a fft lmax npsi nlat) (ompAnn n lmax npsi) :=
  .cons (static_dealt hn) (.cons (static_dealt hn) (.cons (static_dealt hn) .nil))

section
variable {clk : ℝ} {ovf : Res ℤ} {v : ℤ} {pol : Bool} {s b : Num.Exps} {lmax npsi : ℕ} {ths : List ℝ} {eps : ℝ}

theorem thread0_ok (h : Num.KernelOK pol s b lmax npsi) {g : Num.Gen} (hg : Num.mkGen lmax ths eps = ok g) : Num.TSOK lmax ths eps (thread0 lmax g) := by
  obtain ⟨g', q, e, rfl, hq⟩ := ts_exists (ths := ths) (eps := eps) h.pos
  rw [hg] at e
  cases e
  exact hq

theorem fft_len {fft : List ℂ → List ℂ} (hf : Num.IsBackward fft (2 * lmax + 1)) {D : Dims} (h : D.n1 = 2 * lmax + 1) :
    ∀ q : List ℂ, q.length = D.n1 → (fft q).length = D.n1 := fun q hq => by
  rw [h] at hq ⊢
  exact (hf q hq).1

theorem kern_result (hovf : ovf = ok v) (h : Num.KernelOK pol s b lmax npsi) {n : ℕ} {ds : List (Fin n → List ℕ)}
    (hd : Deals (kernRegion clk (dims lmax npsi ths.length) ovf pol s b lmax npsi ths.length) ds) {g : Num.Gen} (hg : Num.mkGen lmax ths eps = ok g)
    {m m' : Cell → ℝ} (hz : ∀ a, Holds (dims lmax npsi ths.length) m a (Num.zero3 (2 * lmax + 1) npsi ths.length)) {s' : Fin n → Num.TS}
    (he : Ends (phases (kernRegion clk (dims lmax npsi ths.length) ovf pol s b lmax npsi ths.length) ds) m (fun _ => thread0 lmax g) m' s') :
    Tables lmax m' ∧ Holds (dims lmax npsi ths.length) m' .T1 (Num.zero3 (2 * lmax + 1) npsi ths.length) ∧
      Holds (dims lmax npsi ths.length) m' .T2 (Num.zero3 (2 * lmax + 1) npsi ths.length) ∧
      Holds (dims lmax npsi ths.length) m' .C1 ((Num.zero3 (2 * lmax + 1) npsi ths.length).plus (Num.dall ovf pol s b lmax npsi ths eps id)) ∧
      Holds (dims lmax npsi ths.length) m' .C2 ((Num.zero3 (2 * lmax + 1) npsi ths.length).plus (Num.dall ovf pol s b lmax npsi ths eps (Real.pi - ·))) := by
  set D := dims lmax npsi ths.length with hD
  set Z := Num.zero3 (2 * lmax + 1) npsi ths.length with hZ
  have dZ : HasDims Z D := ⟨rfl, rfl, rfl⟩
  have hq := thread0_ok (ths := ths) (eps := eps) h hg
  have hsep := kern_separate (clk := clk) (D := D) (ths := ths) (eps := eps) hovf h rfl rfl rfl
  have hm0 : ∀ l, l ∉ junk D → m l = put2 m Z Z l := agree_put (hz _) (agree_put (hz _) (fun _ _ => rfl))
  obtain ⟨s1, m1, e1, hm1⟩ := team_eq_seq 1 hd hsep (fun _ => hq) he hq (m0 := put2 m Z Z) (fun l hl => hm0 l (not_xs.mp hl))
  obtain ⟨q', e2⟩ := seq_kern (clk := clk) (D := D) (ths := ths) (eps := eps) hovf h rfl rfl rfl (List.range npsi) (fun mb hmb => List.mem_range.mp hmb)
    (thread0 lmax g) (put2 m Z Z) hq
  have e3 := e1.symm.trans e2
  injection e3 with _ e3
  obtain ⟨c1, c2⟩ := cube_put2 dZ dZ m
  rw [c1, c2, put2_put2, Num.perm_sum (List.Perm.refl _), Num.perm_sum (List.Perm.refl _)] at e3
  have k1 : ∑ mb ∈ Finset.range npsi, ∑ x ∈ Finset.range (lmax + 1), dmsky ovf pol s b lmax ths eps mb x id =
    Num.dall ovf pol s b lmax npsi ths eps id := rfl
  have k2 : ∑ mb ∈ Finset.range npsi, ∑ x ∈ Finset.range (lmax + 1), dmsky ovf pol s b lmax ths eps mb x (Real.pi - ·) =
    Num.dall ovf pol s b lmax npsi ths eps (Real.pi - ·) := rfl
  rw [k1, k2] at e3
  have hm' : ∀ l, l ∉ junk D → m' l = m1 l := fun l hl => hm1 l (not_xs.mpr hl)
  have cub : ∀ a C, cube D (put2 m (Z.plus (Num.dall ovf pol s b lmax npsi ths eps id)) (Z.plus (Num.dall ovf pol s b lmax npsi ths eps (Real.pi - ·)))) a = C →
      Holds D m' a C := by
    intro a C hC
    have : cube D m1 a = C := by
      rw [e3, ← hC]
      unfold cube
      simp only [putTabs_cub]
    rw [← this]
    exact holds_cube hm' a
  obtain ⟨d1, d2⟩ := cube_put2 (plus_has dZ (Num.dall ovf pol s b lmax npsi ths eps id)) (plus_has dZ (Num.dall ovf pol s b lmax npsi ths eps (Real.pi - ·))) m
  refine ⟨fun i hi => ?_, ?_, ?_, cub .C1 _ d1, cub .C2 _ d2⟩
  · have ht := putTabs_tab lmax (List.range (2 * lmax + 1)) (put2 m (Z.plus (Num.dall ovf pol s b lmax npsi ths eps id))
      (Z.plus (Num.dall ovf pol s b lmax npsi ths eps (Real.pi - ·)))) i
    rw [← e3] at ht
    simp only [List.mem_range, hi, if_true] at ht
    have hn : ∀ c : Cell, c = .cs i ∨ c = .sn i ∨ c = .cs0 i ∨ c = .sn0 i → c ∉ junk D := by
      rintro c (rfl | rfl | rfl | rfl) hc <;> exact hc hi
    rw [hm' _ (hn _ (by simp)), hm' _ (hn _ (by simp)), hm' _ (hn _ (by simp)), hm' _ (hn _ (by simp))]
    exact ht
  · have hT := cub .T1 _ rfl
    unfold put2 at hT
    rw [cube_put_ne _ (by decide), cube_put_ne _ (by decide)] at hT
    exact fun i j k hi hj hk => ⟨(hT i j k hi hj hk).1.trans (hz .T1 i j k hi hj hk).1, (hT i j k hi hj hk).2.trans (hz .T1 i j k hi hj hk).2⟩
  · have hT := cub .T2 _ rfl
    unfold put2 at hT
    rw [cube_put_ne _ (by decide), cube_put_ne _ (by decide)] at hT
    exact fun i j k hi hj hk => ⟨(hT i j k hi hj hk).1.trans (hz .T2 i j k hi hj hk).1, (hT i j k hi hj hk).2.trans (hz .T2 i j k hi hj hk).2⟩

/-- Memory with all entries of the tables, also those that do not exist. -/
noncomputable def allTabs (lmax : ℕ) (m : Cell → ℝ) : Cell → ℝ
  | .cs i => csV lmax i
  | .sn i => snV lmax i
  | .cs0 i => cs0V lmax i
  | .sn0 i => sn0V lmax i
  | l => m l

theorem agree_tabs {lmax npsi nlat : ℕ} {m : Cell → ℝ} (ht : Tables lmax m) : ∀ l, l ∉ junk (dims lmax npsi nlat) → m l = allTabs lmax m l := by
  intro l hl
  cases l with
  | cs i | sn i | cs0 i | sn0 i =>
    have hi : i < 2 * lmax + 1 := by
      by_contra hc
      exact hl hc
    have := ht i hi
    first
    | exact this.1
    | exact this.2.1
    | exact this.2.2.1
    | exact this.2.2.2
  | _ => rfl

theorem ann_result {fft : List ℂ → List ℂ} (hf : Num.IsBackward fft (2 * lmax + 1)) (hn : npsi ≤ lmax + 1) {nlat n : ℕ} {a : Pair} (ha : a.C ≠ a.T)
    {ds : List (Fin n → List ℕ)} (hd : Deals (annRegion (dims lmax npsi nlat) a fft lmax npsi nlat) ds) {m m' : Cell → ℝ} (ht : Tables lmax m)
    (hz : Holds (dims lmax npsi nlat) m a.T (Num.zero3 (2 * lmax + 1) npsi nlat)) {C : Num.A3 ℂ}
    (hC : HasDims C (dims lmax npsi nlat)) (hmC : Holds (dims lmax npsi nlat) m a.C C) {s' : Fin n → List ℂ}
    (he : Ends (phases (annRegion (dims lmax npsi nlat) a fft lmax npsi nlat) ds) m (fun _ => cmsky0 lmax) m' s') :
    ∃ T, Num.todAnnulus (List.range (2 * lmax + 1)) (List.range npsi) (List.range (2 * lmax + 1)) fft lmax npsi nlat C = ok T ∧
      Holds (dims lmax npsi nlat) m' a.T T ∧ Tables lmax m' ∧
      ∀ b, b ≠ a.C → b ≠ a.T → ∀ B, Holds (dims lmax npsi nlat) m b B → Holds (dims lmax npsi nlat) m' b B := by
  set D := dims lmax npsi nlat with hD
  have hlen := fft_len hf (D := D) rfl
  have hsep := ann_separate (D := D) ha hlen (lmax := lmax) (npsi := npsi) (nlat := nlat) rfl rfl rfl hn
  have hq : GoodB D (cmsky0 lmax) := goodB_zero D
  have hm0 : ∀ l, l ∉ junk D → m l = put (put (allTabs lmax m) a.C C) a.T (Num.zero3 (2 * lmax + 1) npsi nlat) l :=
    agree_put hz (agree_put hmC (agree_tabs ht))
  obtain ⟨s1, m1, e1, hm1⟩ := team_eq_seq 1 hd hsep (fun _ => hq) he hq (fun l hl => hm0 l (not_xs.mp hl))
  obtain ⟨T, q', C', eT, dT, e2⟩ := ann_seq (D := D) ha hlen (lmax := lmax) (npsi := npsi) (nlat := nlat) rfl rfl rfl hn
    (m := put (put (allTabs lmax m) a.C C) a.T (Num.zero3 (2 * lmax + 1) npsi nlat)) (fun _ => ⟨rfl, rfl, rfl, rfl⟩)
    (cube_put (D := D) ⟨rfl, rfl, rfl⟩ _ _) hq
  rw [cube_put_ne _ ha, cube_put hC] at eT
  have e3 := e1.symm.trans e2
  injection e3 with _ e3
  have hm' : ∀ l, l ∉ junk D → m' l = m1 l := fun l hl => hm1 l (not_xs.mpr hl)
  refine ⟨T, eT, ?_, fun i hi => ?_, fun c hc1 hc2 B hB => ?_⟩
  · have := holds_cube hm' a.T
    rwa [e3, cube_put dT] at this
  · have hn : ∀ c : Cell, c = .cs i ∨ c = .sn i ∨ c = .cs0 i ∨ c = .sn0 i → c ∉ junk D := by
      rintro c (rfl | rfl | rfl | rfl) hc <;> exact hc hi
    rw [hm' _ (hn _ (by simp)), hm' _ (hn _ (by simp)), hm' _ (hn _ (by simp)), hm' _ (hn _ (by simp)), e3]
    exact ⟨rfl, rfl, rfl, rfl⟩
  · have := holds_cube hm' c
    rw [e3, cube_put_ne _ hc2, cube_put_ne _ hc1, cube_put_ne _ hc2, cube_put_ne _ hc1] at this
    exact fun i j k hi hj hk => ⟨(this i j k hi hj hk).1.trans (hB i j k hi hj hk).1, (this i j k hi hj hk).2.trans (hB i j k hi hj hk).2⟩

/-! ## the property -/

/-- C74: while the ring coefficients are accumulated, by any number `n` of threads, whatever iterations the loops deal to them, no
reachable configuration is a data race, and none of the threads runs into undefined behaviour or lets an exception escape. -/
theorem C74_coefficients_safe (hovf : ovf = ok v) (h : Num.KernelOK pol s b lmax npsi) {n : ℕ} {ds : List (Fin n → List ℕ)}
    (hd : Deals (kernRegion clk (dims lmax npsi ths.length) ovf pol s b lmax npsi ths.length) ds) {g : Num.Gen} (hg : Num.mkGen lmax ths eps = ok g)
    {m : Cell → ℝ} {c : Cfg n Cell ℝ Num.TS}
    (hr : Reach (phases (kernRegion clk (dims lmax npsi ths.length) ovf pol s b lmax npsi ths.length) ds) m (fun _ => thread0 lmax g) c) :
    ¬ Race c ∧ ¬ Broken c :=
  team_safe hd (kern_separate hovf h rfl rfl rfl) (fun _ => thread0_ok h hg) hr

/-- C74: the same for the synthesis of the rings (`todAnnulus`), for either pair of cubes. -/
theorem C74_synthesis_safe {fft : List ℂ → List ℂ} (hf : Num.IsBackward fft (2 * lmax + 1)) (hn : npsi ≤ lmax + 1) {nlat n : ℕ} {a : Pair} (ha : a.C ≠ a.T)
    {ds : List (Fin n → List ℕ)} (hd : Deals (annRegion (dims lmax npsi nlat) a fft lmax npsi nlat) ds) {m : Cell → ℝ} {c : Cfg n Cell ℝ (List ℂ)}
    (hr : Reach (phases (annRegion (dims lmax npsi nlat) a fft lmax npsi nlat) ds) m (fun _ => cmsky0 lmax) c) : ¬ Race c ∧ ¬ Broken c :=
  team_safe hd (ann_separate ha (fft_len hf rfl) rfl rfl rfl hn) (fun _ => goodB_zero _) hr

/-- C74: `schedule(static, c)` as written in the source hands every iteration to exactly one thread. -/
theorem C74_static_schedule {n : ℕ} (hn : 0 < n) (clk : ℝ) (D : Dims) (ovf : Res ℤ) (pol : Bool) (s b : Num.Exps) (a : Pair) (fft : List ℂ → List ℂ)
    (lmax npsi nlat : ℕ) : Deals (kernRegion clk D ovf pol s b lmax npsi nlat) (ompKern n lmax npsi) ∧
      Deals (annRegion D a fft lmax npsi nlat) (ompAnn n lmax npsi) :=
  ⟨static_deals_kern clk D ovf pol s b lmax npsi nlat hn, static_deals_ann D a fft lmax npsi nlat hn⟩

/-- C74: no schedule of the threads can run forever between two barriers, and every execution can be completed: the regions
neither hang nor livelock. -/
theorem C74_terminates (hovf : ovf = ok v) (h : Num.KernelOK pol s b lmax npsi) {fft : List ℂ → List ℂ} (hf : Num.IsBackward fft (2 * lmax + 1))
    {a : Pair} (ha : a.C ≠ a.T) {n : ℕ} {ds da : List (Fin n → List ℕ)}
    (hd : Deals (kernRegion clk (dims lmax npsi ths.length) ovf pol s b lmax npsi ths.length) ds)
    (hda : Deals (annRegion (dims lmax npsi ths.length) a fft lmax npsi ths.length) da) {g : Num.Gen} (hg : Num.mkGen lmax ths eps = ok g) (m : Cell → ℝ) :
    (∃ m' s', Ends (phases (kernRegion clk (dims lmax npsi ths.length) ovf pol s b lmax npsi ths.length) ds) m (fun _ => thread0 lmax g) m' s') ∧
    (∃ m' s', Ends (phases (annRegion (dims lmax npsi ths.length) a fft lmax npsi ths.length) da) m (fun _ => cmsky0 lmax) m' s') ∧
    (∀ P ∈ phases (kernRegion clk (dims lmax npsi ths.length) ovf pol s b lmax npsi ths.length) ds, ∀ m s, ∃ N, ∀ k c, StepsN k (start P m s) c → k ≤ N) ∧
    (∀ P ∈ phases (annRegion (dims lmax npsi ths.length) a fft lmax npsi ths.length) da, ∀ m s, ∃ N, ∀ k c, StepsN k (start P m s) c → k ≤ N) := by
  have s1 := kern_separate (clk := clk) (D := dims lmax npsi ths.length) (ths := ths) (eps := eps) hovf h rfl rfl rfl
  have s2 := ann_separate (D := dims lmax npsi ths.length) ha (fft_len hf rfl) (lmax := lmax) (npsi := npsi) (nlat := ths.length) rfl rfl rfl h.npsi_le
  exact ⟨team_completes hd s1 m (fun _ => thread0_ok h hg), team_completes hda s2 m (fun _ => goodB_zero _),
    fun P hP m s => team_bound hd s1 hP m s, fun P hP m s => team_bound hda s2 hP m s⟩

/-- C74: the three regions executed one after the other, starting with zeroed cubes, by teams of any sizes and in any interleaving, leave in
`my_tod1` and `my_tod2` exactly what the sequential program computes, whatever order `o` it takes the iterations in. -/
theorem C74_result (hovf : ovf = ok v) (h : Num.KernelOK pol s b lmax npsi) {fft : List ℂ → List ℂ} (hf : Num.IsBackward fft (2 * lmax + 1))
    {g : Num.Gen} (hg : Num.mkGen lmax ths eps = ok g) {n n1 n2 : ℕ} {ds : List (Fin n → List ℕ)} {d1 : List (Fin n1 → List ℕ)} {d2 : List (Fin n2 → List ℕ)}
    (hd : Deals (kernRegion clk (dims lmax npsi ths.length) ovf pol s b lmax npsi ths.length) ds)
    (hd1 : Deals (annRegion (dims lmax npsi ths.length) ⟨.C1, .T1⟩ fft lmax npsi ths.length) d1)
    (hd2 : Deals (annRegion (dims lmax npsi ths.length) ⟨.C2, .T2⟩ fft lmax npsi ths.length) d2)
    {m m1 m2 m3 : Cell → ℝ} {s1 : Fin n → Num.TS} {s2 : Fin n1 → List ℂ} {s3 : Fin n2 → List ℂ}
    (hz : ∀ a i j k im, m (.cub a i j k im) = 0)
    (he : Ends (phases (kernRegion clk (dims lmax npsi ths.length) ovf pol s b lmax npsi ths.length) ds) m (fun _ => thread0 lmax g) m1 s1)
    (he1 : Ends (phases (annRegion (dims lmax npsi ths.length) ⟨.C1, .T1⟩ fft lmax npsi ths.length) d1) m1 (fun _ => cmsky0 lmax) m2 s2)
    (he2 : Ends (phases (annRegion (dims lmax npsi ths.length) ⟨.C2, .T2⟩ fft lmax npsi ths.length) d2) m2 (fun _ => cmsky0 lmax) m3 s3)
    {o : Num.Orders} (ho : o.OK lmax npsi) :
    ∃ T1 T2, Num.kernelCubes ovf o fft pol s b lmax npsi ths eps = ok (T1, T2) ∧
      ∀ i j k, i < 2 * lmax + 1 → j < npsi → k < ths.length →
        (m3 (.cub .T1 i j k false) = (T1.val i j k).re ∧ m3 (.cub .T1 i j k true) = (T1.val i j k).im) ∧
        (m3 (.cub .T2 i j k false) = (T2.val i j k).re ∧ m3 (.cub .T2 i j k true) = (T2.val i j k).im) := by
  obtain ⟨t1, z1, z2, c1, c2⟩ := kern_result hovf h hd hg (fun a i j k _ _ _ => ⟨hz a i j k false, hz a i j k true⟩) he
  obtain ⟨A, eA, hA, t2, k2⟩ := ann_result hf h.npsi_le (a := ⟨.C1, .T1⟩) (by decide) hd1 t1 z1 ⟨rfl, rfl, rfl⟩ c1 he1
  obtain ⟨B, eB, hB, t3, k3⟩ := ann_result hf h.npsi_le (a := ⟨.C2, .T2⟩) (by decide) hd2 t2 (k2 .T2 (by decide) (by decide) _ z2) ⟨rfl, rfl, rfl⟩
    (k2 .C2 (by decide) (by decide) _ c2) he2
  have hA' := k3 .T1 (by decide) (by decide) _ hA
  obtain ⟨T, eT, hT⟩ := Num.kernelCubes_ok hovf h ho hf ths eps
  obtain ⟨T', eT', hT'⟩ := Num.kernelCubes_ok hovf h (o := ⟨⟨fun _ => List.range (lmax + 1), fun _ _ => 0⟩, List.range (2 * lmax + 1), List.range npsi,
    List.range (2 * lmax + 1), List.range (2 * lmax + 1), List.range npsi, List.range (2 * lmax + 1)⟩)
    ⟨fun _ => List.Perm.refl _, List.Perm.refl _, List.Perm.refl _, List.Perm.refl _, List.Perm.refl _, List.Perm.refl _, List.Perm.refl _⟩ hf ths eps
  have e := eT'
  unfold Num.kernelCubes at e
  rw [Num.accumulate_ok hovf h (fun _ => List.Perm.refl _), ok_bind] at e
  dsimp only at e
  rw [eA, ok_bind, eB, ok_bind] at e
  injection e with e
  injection e with ea eb
  refine ⟨T false, T true, eT, fun i j k hi hj hk => ?_⟩
  have ea' : A.val i j k = (T false).val i j k := by rw [ea, hT false i j k hi hj hk, hT' false i j k hi hj hk]
  have eb' : B.val i j k = (T true).val i j k := by rw [eb, hT true i j k hi hj hk, hT' true i j k hi hj hk]
  exact ⟨by rw [← ea']; exact hA' i j k hi hj hk, by rw [← eb']; exact hB i j k hi hj hk⟩

end

end Verif.Par
