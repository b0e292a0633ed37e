import Verif.Par.Ann

/-!
# The region of `todAnnulus`: it is free of races and computes the ring data
-/

namespace Verif.Par
open Verif Res

/-- Elements outside the dimensions (they do not exist; nothing is said about them), and the profiling counters. -/
def junk (D : Dims) : Set Cell := {l | match l with
  | .cub _ i j k _ => ¬ (i < D.n1 ∧ j < D.n2 ∧ k < D.n3)
  | .cs i | .sn i | .cs0 i | .sn0 i => ¬ i < D.n1
  | _ => True}

/-- Only thread 0 may touch them. -/
def XS (D : Dims) (t : ℕ) : Set Cell := if t = 0 then junk D else ∅

theorem xs_one (D : Dims) : XS D 1 = ∅ := rfl

theorem xs_mem {D : Dims} {t : ℕ} {l : Cell} (h : l ∈ XS D t) : t = 0 ∧ l ∈ junk D := by
  unfold XS at h
  split at h
  · rename_i h0; exact ⟨h0, h⟩
  · exact absurd h (by simp)

theorem xs_xx (D : Dims) : ∀ t u, t ≠ u → ∀ l ∈ XS D t, l ∉ XS D u := by
  intro t u h l hl hu
  exact h ((xs_mem hl).1.trans (xs_mem hu).1.symm)

theorem not_xs {D : Dims} {l : Cell} : (∀ t, l ∉ XS D t) ↔ l ∉ junk D :=
  ⟨fun h hl => h 0 (by unfold XS; rw [if_pos rfl]; exact hl), fun h _ ht => h (xs_mem ht).2⟩

theorem junk_tabs {D : Dims} {l : Cell} (h : l ∈ junk D) : l ∉ tabs D := by
  rintro ⟨i, h1, h2⟩
  rcases h1 with rfl | rfl | rfl | rfl <;> exact h h2

theorem junk_all {D : Dims} {l : Cell} {a : Arr} (h : l ∈ junk D) : l ∉ allOf D a := by
  rintro ⟨i, j, k, im, rfl, h2⟩
  exact h h2

theorem row_all {D : Dims} {a : Arr} {i : ℕ} {l : Cell} (h : l ∈ rowOf D a i) : l ∈ allOf D a := by
  obtain ⟨j, k, im, e, hr⟩ := h; exact ⟨i, j, k, im, e, hr⟩
theorem col_all {D : Dims} {a : Arr} {i : ℕ} {l : Cell} (h : l ∈ colOf D a i) : l ∈ allOf D a := by
  obtain ⟨j, k, im, e, hr⟩ := h; exact ⟨j, i, k, im, e, hr⟩
theorem all_tabs {D : Dims} {a : Arr} {l : Cell} (h : l ∈ allOf D a) : l ∉ tabs D := by
  obtain ⟨i, j, k, im, rfl, -⟩ := h
  rintro ⟨i, h | h | h | h, -⟩ <;> cases h
theorem all_ne {D : Dims} {a b : Arr} (hab : a ≠ b) {l : Cell} (h : l ∈ allOf D a) : l ∉ allOf D b := by
  obtain ⟨i, j, k, im, rfl, -⟩ := h
  rintro ⟨i', j', k', im', h, -⟩
  injection h with h; exact hab h
theorem row_ne {D : Dims} {a : Arr} {i i' : ℕ} (hi : i ≠ i') {l : Cell} (h : l ∈ rowOf D a i) : l ∉ rowOf D a i' := by
  obtain ⟨j, k, im, rfl, -⟩ := h
  rintro ⟨j', k', im', h, -⟩
  injection h with _ h; exact hi h
theorem col_ne {D : Dims} {a : Arr} {i i' : ℕ} (hi : i ≠ i') {l : Cell} (h : l ∈ colOf D a i) : l ∉ colOf D a i' := by
  obtain ⟨j, k, im, rfl, -⟩ := h
  rintro ⟨j', k', im', h, -⟩
  injection h with _ _ h; exact hi h

/-- `Cmsky` has its length. -/
def GoodB (D : Dims) (q : List ℂ) : Prop := q.length = D.n1

theorem goodB_zero (D : Dims) : GoodB D (List.replicate D.n1 0) := by simp [GoodB]

theorem fA_total {D : Dims} (c s : ℕ → ℝ) {npsi nlat ii : ℕ} (hi : ii < D.n1) (h2 : npsi = D.n2) (h3 : nlat = D.n3) {C : Num.A3 ℂ}
    (hC : HasDims C D) : ∃ C', fA c s npsi nlat ii C = ok C' ∧ HasDims C' D := by
  unfold fA
  refine forL_total (fun mb hmb C hC => forL_total (fun lat hlat C hC => upd3_total hC hi ?_ ?_ _) C hC) C hC
  · have := List.mem_range.mp hmb; omega
  · have := List.mem_range.mp hlat; omega

theorem fC_total {D : Dims} (c0 s0 c s : ℕ → ℝ) {lmax npsi nlat ii : ℕ} (hi : ii < D.n1) (h2 : npsi = D.n2) (h3 : nlat = D.n3) {C : Num.A3 ℂ}
    (hC : HasDims C D) : ∃ C', fC c0 s0 c s lmax npsi nlat ii C = ok C' ∧ HasDims C' D := by
  unfold fC
  refine forL_total (fun mb hmb C hC => forL_total (fun lat hlat C hC => upd3_total hC hi ?_ ?_ _) C hC) C hC
  · have := List.mem_range.mp hmb; omega
  · have := List.mem_range.mp hlat; omega

theorem fB1_total {D : Dims} {fft : List ℂ → List ℂ} (hf : ∀ q, q.length = D.n1 → (fft q).length = D.n1) (C : Num.A3 ℂ) {mb lat : ℕ} (hj : mb < D.n2)
    (hk : lat < D.n3) {T : Num.A3 ℂ} (hT : HasDims T D) : ∃ T', fB1 D fft C mb lat T = ok T' ∧ HasDims T' D := by
  unfold fB1
  refine forL_total (fun k hk' T hT => ?_) T hT
  have := List.mem_range.mp hk'
  rw [rd_nat (by rw [hf _ (by simp [column])]; exact this), ok_bind]
  exact upd3_total hT this hj hk _

theorem fB_total {D : Dims} {fft : List ℂ → List ℂ} (hf : ∀ q, q.length = D.n1 → (fft q).length = D.n1) (C : Num.A3 ℂ) {nlat mb : ℕ} (hj : mb < D.n2)
    (h3 : nlat = D.n3) {T : Num.A3 ℂ} (hT : HasDims T D) : ∃ T', fB D fft C nlat mb T = ok T' ∧ HasDims T' D := by
  unfold fB
  exact forL_total (fun lat hlat T hT => fB1_total hf C hj (by have := List.mem_range.mp hlat; omega) hT) T hT

theorem cube_dims (D : Dims) (m : Cell → ℝ) (a : Arr) : HasDims (cube D m a) D := ⟨rfl, rfl, rfl⟩

/-- memory after the model function, or unchanged -/
def effOf (m : Cell → ℝ) (a : Arr) : Res (Num.A3 ℂ) → Cell → ℝ
  | .ok C => put m a C
  | _ => m

theorem union_xs {W : Set Cell} {D : Dims} {t : ℕ} : W ⊆ W ∪ XS D t := fun _ h => Or.inl h

theorem sepA {D : Dims} {a : Pair} {lmax npsi nlat : ℕ} (h1 : D.n1 = 2 * lmax + 1) (h2 : npsi = D.n2) (h3 : nlat = D.n3) :
    Separate (XS D) (GoodB D) (loopA D a lmax npsi nlat) := by
  have hi : ∀ i ∈ (loopA D a lmax npsi nlat).iters, i < D.n1 := fun i h => by have := List.mem_range.mp h; omega
  refine ⟨rowOf D a.C, tabs D, fun ii m => effOf m a.C (fA (fun i => m (.cs i)) (fun i => m (.sn i)) npsi nlat ii (cube D m a.C)),
    LoopOK.of (goodB_zero D) (xs_one D) List.nodup_range (fun _ _ => trivial) (fun _ s m hg => ⟨s, hg, rfl⟩)
      (fun t i _ s => (bodyA_stays D a npsi nlat i s).mono union_xs) (fun i _ j _ hij l hl => row_ne hij hl)
      (fun i _ t l hl hx => junk_all (xs_mem hx).2 (row_all hl)) (fun i _ l hl => all_tabs (row_all hl)) (xs_xx D)
      (fun t l hl => junk_tabs (xs_mem hl).2) (fun t i hi' s m hg => ?_)⟩
  obtain ⟨C', e, hC'⟩ := fA_total (fun i => m (.cs i)) (fun i => m (.sn i)) (hi i hi') h2 h3 (cube_dims D m a.C)
  obtain ⟨-, r⟩ := simA (a := a) (hi i hi') (fun i => m (.cs i)) (fun i => m (.sn i)) (fun i => m (.cs0 i)) (fun i => m (.sn0 i)) s m C'
    (fun i => ⟨rfl, rfl, rfl, rfl⟩) e
  refine ⟨s, hg, ?_, fun l _ => ?_⟩
  · show (run (bodyA D a npsi nlat i s) m).1 = _
    rw [r]
  · show (run (bodyA D a npsi nlat i s) m).2 l = _
    rw [r]
    dsimp only
    rw [e]; rfl

theorem sepC {D : Dims} {a : Pair} {lmax npsi nlat : ℕ} (h1 : D.n1 = 2 * lmax + 1) (h2 : npsi = D.n2) (h3 : nlat = D.n3) (hn : npsi ≤ lmax + 1) :
    Separate (XS D) (GoodB D) (loopC D a lmax npsi nlat) := by
  have hi : ∀ i ∈ (loopC D a lmax npsi nlat).iters, i < D.n1 := fun i h => by have := List.mem_range.mp h; omega
  refine ⟨rowOf D a.T, tabs D, fun ii m => effOf m a.T (fC (fun i => m (.cs0 i)) (fun i => m (.sn0 i)) (fun i => m (.cs i)) (fun i => m (.sn i))
      lmax npsi nlat ii (cube D m a.T)),
    LoopOK.of (goodB_zero D) (xs_one D) List.nodup_range (fun _ _ => trivial) (fun _ s m hg => ⟨s, hg, rfl⟩)
      (fun t i _ s => (bodyC_stays D a lmax npsi nlat i s).mono union_xs) (fun i _ j _ hij l hl => row_ne hij hl)
      (fun i _ t l hl hx => junk_all (xs_mem hx).2 (row_all hl)) (fun i _ l hl => all_tabs (row_all hl)) (xs_xx D)
      (fun t l hl => junk_tabs (xs_mem hl).2) (fun t i hi' s m hg => ?_)⟩
  obtain ⟨C', e, hC'⟩ := fC_total (fun i => m (.cs0 i)) (fun i => m (.sn0 i)) (fun i => m (.cs i)) (fun i => m (.sn i)) (lmax := lmax)
    (hi i hi') h2 h3 (cube_dims D m a.T)
  obtain ⟨-, r⟩ := simC (a := a) (lmax := lmax) (hi i hi') (by omega) (fun i => m (.cs i)) (fun i => m (.sn i)) (fun i => m (.cs0 i))
    (fun i => m (.sn0 i)) s m C' (fun i => ⟨rfl, rfl, rfl, rfl⟩) e
  refine ⟨s, hg, ?_, fun l _ => ?_⟩
  · show (run (bodyC D a lmax npsi nlat i s) m).1 = _
    rw [r]
  · show (run (bodyC D a lmax npsi nlat i s) m).2 l = _
    rw [r]
    dsimp only
    rw [e]; rfl

theorem sepB {D : Dims} {a : Pair} (ha : a.C ≠ a.T) {fft : List ℂ → List ℂ} (hf : ∀ q, q.length = D.n1 → (fft q).length = D.n1) {lmax npsi nlat : ℕ}
    (h1 : D.n1 = 2 * lmax + 1) (h2 : npsi = D.n2) (h3 : nlat = D.n3) :
    Separate (XS D) (GoodB D) (loopB D a fft lmax npsi nlat) := by
  have hi : ∀ i ∈ (loopB D a fft lmax npsi nlat).iters, i < D.n2 := fun i h => by have := List.mem_range.mp h; omega
  refine ⟨colOf D a.T, allOf D a.C, fun mb m => effOf m a.T (fB D fft (cube D m a.C) nlat mb (cube D m a.T)),
    LoopOK.of (goodB_zero D) (xs_one D) List.nodup_range (fun _ _ => trivial) (fun _ s m hg => ⟨s, hg, rfl⟩)
      (fun t i _ s => (bodyB_stays D a fft lmax nlat i s).mono union_xs) (fun i _ j _ hij l hl => col_ne hij hl)
      (fun i _ t l hl hx => junk_all (xs_mem hx).2 (col_all hl)) (fun i _ l hl => all_ne ha.symm (col_all hl)) (xs_xx D)
      (fun t l hl => junk_all (xs_mem hl).2) (fun t i hi' s m hg => ?_)⟩
  obtain ⟨T', e, hT'⟩ := fB_total hf (cube D m a.C) (hi i hi') h3 (cube_dims D m a.T)
  obtain ⟨-, q', hq', r⟩ := run_bodyB ha h1 (hi i hi') hf (cube D m a.C) (List.range nlat)
    (fun x hx => by have := List.mem_range.mp hx; omega) s hg m T' rfl e
  have r' : run (bodyB D a fft lmax nlat i s) m = (ok q', put m a.T T') := r
  refine ⟨q', hq', ?_, fun l _ => ?_⟩
  · show (run (bodyB D a fft lmax nlat i s) m).1 = _
    rw [r']
  · show (run (bodyB D a fft lmax nlat i s) m).2 l = _
    rw [r']
    dsimp only
    rw [e]; rfl

theorem ann_separate {D : Dims} {a : Pair} (ha : a.C ≠ a.T) {fft : List ℂ → List ℂ} (hf : ∀ q, q.length = D.n1 → (fft q).length = D.n1) {lmax npsi nlat : ℕ}
    (h1 : D.n1 = 2 * lmax + 1) (h2 : npsi = D.n2) (h3 : nlat = D.n3) (hn : npsi ≤ lmax + 1) :
    ∀ lp ∈ annRegion D a fft lmax npsi nlat, Separate (XS D) (GoodB D) lp := by
  intro lp h
  unfold annRegion at h
  simp only [List.mem_cons, List.not_mem_nil, or_false] at h
  rcases h with rfl | rfl | rfl
  · exact sepA h1 h2 h3
  · exact sepB ha hf h1 h2 h3
  · exact sepC h1 h2 h3 hn

/-! ## the sequential region is the model of Num/Kernel.lean -/

noncomputable def csV (lmax i : ℕ) : ℝ := Real.cos (-(Real.pi / 2) * ((i : ℝ) - lmax))
noncomputable def snV (lmax i : ℕ) : ℝ := Real.sin (-(Real.pi / 2) * ((i : ℝ) - lmax))
noncomputable def cs0V (lmax i : ℕ) : ℝ := Real.cos (i * (2 * Real.pi * lmax / (2 * lmax + 1)))
noncomputable def sn0V (lmax i : ℕ) : ℝ := Real.sin (i * (2 * Real.pi * lmax / (2 * lmax + 1)))

/-- The tables are filled. -/
abbrev TabOK (lmax : ℕ) : (Cell → ℝ) → Prop := Tab (csV lmax) (snV lmax) (cs0V lmax) (sn0V lmax)

theorem rd_tab {lmax i : ℕ} (h : i < 2 * lmax + 1) : rd (Num.csTab lmax) (i : ℤ) = ok (csV lmax i) ∧ rd (Num.snTab lmax) (i : ℤ) = ok (snV lmax i) ∧
    rd (Num.cs0Tab lmax) (i : ℤ) = ok (cs0V lmax i) ∧ rd (Num.sn0Tab lmax) (i : ℤ) = ok (sn0V lmax i) := by
  unfold Num.csTab Num.snTab Num.cs0Tab Num.sn0Tab csV snV cs0V sn0V
  refine ⟨?_, ?_, ?_, ?_⟩ <;> · rw [rd_nat (by simpa using h)]; simp

theorem forL_congr {β : Type} {xs : List β} {f g : β → Num.A3 ℂ → Res (Num.A3 ℂ)} (h : ∀ x ∈ xs, ∀ C, f x C = g x C) (C : Num.A3 ℂ) :
    Num.forL xs f C = Num.forL xs g C := by
  induction xs generalizing C with
  | nil => rfl
  | cons x xs ih =>
    show (f x C >>= fun C => Num.forL xs f C) = (g x C >>= fun C => Num.forL xs g C)
    rw [h x List.mem_cons_self]
    congr 1
    funext C
    exact ih (fun y hy => h y (List.mem_cons_of_mem _ hy)) C

theorem annulusA_eq (lmax npsi nlat : ℕ) (C : Num.A3 ℂ) : Num.annulusA (List.range (2 * lmax + 1)) lmax npsi nlat C =
    Num.forL (List.range (2 * lmax + 1)) (fA (csV lmax) (snV lmax) npsi nlat) C := by
  unfold Num.annulusA
  refine forL_congr (fun ii hii C => ?_) C
  have h := rd_tab (List.mem_range.mp hii)
  rw [h.1, ok_bind, h.2.1, ok_bind]
  rfl

theorem annulusC_eq (lmax npsi nlat : ℕ) (hn : npsi ≤ lmax + 1) (C : Num.A3 ℂ) : Num.annulusC (List.range (2 * lmax + 1)) lmax npsi nlat C =
    Num.forL (List.range (2 * lmax + 1)) (fC (cs0V lmax) (sn0V lmax) (csV lmax) (snV lmax) lmax npsi nlat) C := by
  unfold Num.annulusC
  refine forL_congr (fun ii hii C => ?_) C
  have h := rd_tab (List.mem_range.mp hii)
  rw [h.2.2.1, ok_bind, h.2.2.2, ok_bind]
  unfold fC
  refine forL_congr (fun mb hmb C => ?_) C
  have hmb := List.mem_range.mp hmb
  have h := rd_tab (lmax := lmax) (i := mb + lmax) (by omega)
  rw [show ((mb : ℤ) + lmax) = ((mb + lmax : ℕ) : ℤ) by push_cast; rfl, h.1, ok_bind, h.2.1, ok_bind]

theorem mapM_ok {β γ : Type} (f : β → Res γ) (g : β → γ) : ∀ (xs : List β), (∀ x ∈ xs, f x = ok (g x)) → xs.mapM f = ok (xs.map g)
  | [], _ => rfl
  | x :: xs, h => by
    rw [List.mapM_cons, h x List.mem_cons_self, ok_bind, mapM_ok f g xs (fun y hy => h y (List.mem_cons_of_mem _ hy))]
    rfl

theorem annulusB_eq {D : Dims} (fft : List ℂ → List ℂ) (lmax npsi nlat : ℕ) (h1 : D.n1 = 2 * lmax + 1) (h2 : npsi = D.n2) (h3 : nlat = D.n3)
    {C : Num.A3 ℂ} (hC : HasDims C D) (T : Num.A3 ℂ) : Num.annulusB (List.range npsi) fft lmax nlat C T =
    Num.forL (List.range npsi) (fun mb T => fB D fft C nlat mb T) T := by
  unfold Num.annulusB
  refine forL_congr (fun mb hmb T => ?_) T
  have hmb := List.mem_range.mp hmb
  unfold fB
  refine forL_congr (fun lat hlat T => ?_) T
  have hlat := List.mem_range.mp hlat
  obtain ⟨e1, e2, e3⟩ := hC
  rw [mapM_ok _ (fun ii => C.val ii mb lat) _ (fun ii hii => ?_), ok_bind]
  · unfold fB1 column
    rw [h1]
  · have hii := List.mem_range.mp hii
    unfold Num.rd3
    rw [if_pos (by unfold Num.A3.In; omega)]
    simp

/-- The three loops, executed by one thread, act on the cubes like `todAnnulus` of the model. -/
theorem ann_seq {D : Dims} {a : Pair} (ha : a.C ≠ a.T) {fft : List ℂ → List ℂ} (hf : ∀ q, q.length = D.n1 → (fft q).length = D.n1) {lmax npsi nlat : ℕ}
    (h1 : D.n1 = 2 * lmax + 1) (h2 : npsi = D.n2) (h3 : nlat = D.n3) (hn : npsi ≤ lmax + 1) {m : Cell → ℝ} (hT : TabOK lmax m)
    (hz : cube D m a.T = Num.zero3 (2 * lmax + 1) npsi nlat) {q : List ℂ} (hq : GoodB D q) :
    ∃ T q' C', Num.todAnnulus (List.range (2 * lmax + 1)) (List.range npsi) (List.range (2 * lmax + 1)) fft lmax npsi nlat (cube D m a.C) = ok T ∧
      HasDims T D ∧ run (seqAll 1 (annRegion D a fft lmax npsi nlat) q) m = (ok q', put (put m a.C C') a.T T) := by
  have hr : ∀ i ∈ List.range (2 * lmax + 1), i < D.n1 := fun i h => by have := List.mem_range.mp h; omega
  -- first loop
  obtain ⟨C1, e1, d1⟩ := forL_total (D := D) (f := fA (csV lmax) (snV lmax) npsi nlat) (xs := List.range (2 * lmax + 1))
    (fun i hi C hC => fA_total _ _ (hr i hi) h2 h3 hC) (cube D m a.C) (cube_dims D m a.C)
  obtain ⟨-, r1⟩ := Sim.forL (tab_blind (csV lmax) (snV lmax) (cs0V lmax) (sn0V lmax) a.C) (p := bodyA D a npsi nlat)
    (fun x hx s => simA (a := a) (npsi := npsi) (nlat := nlat) (hr x hx) _ _ _ _ s) q m C1 hT e1
  -- second loop
  have key : ∀ (xs : List ℕ), (∀ x ∈ xs, x < npsi) → ∀ (q : List ℂ) (m : Cell → ℝ) (T : Num.A3 ℂ), GoodB D q → cube D m a.C = C1 →
      Num.forL xs (fun mb T => fB D fft C1 nlat mb T) (cube D m a.T) = ok T →
      HasDims T D ∧ ∃ q', GoodB D q' ∧ run (Prog.forL xs (bodyB D a fft lmax nlat) q) m = (ok q', put m a.T T) := by
    intro xs
    induction xs with
    | nil =>
      intro _ q m T hq _ h
      change ok (cube D m a.T) = ok T at h
      injection h with h
      subst h
      exact ⟨⟨rfl, rfl, rfl⟩, q, hq, by rw [put_cube]; rfl⟩
    | cons x xs ih =>
      intro hx q m T hq hC h
      change (fB D fft C1 nlat x (cube D m a.T) >>= fun T => Num.forL xs _ T) = ok T at h
      obtain ⟨T1, e1, e2⟩ := bind_eq_ok.mp h
      have hx0 := hx x List.mem_cons_self
      obtain ⟨d1, q1, hq1, r1⟩ := run_bodyB ha h1 (by omega) hf C1 (List.range nlat)
        (fun x hx => by have := List.mem_range.mp hx; omega) q hq m T1 hC e1
      obtain ⟨d2, q2, hq2, r2⟩ := ih (fun y hy => hx y (List.mem_cons_of_mem _ hy)) q1 (put m a.T T1) T hq1
        (by rw [cube_put_ne m ha]; exact hC) (by rw [cube_put d1]; exact e2)
      refine ⟨d2, q2, hq2, ?_⟩
      have r1' : run (bodyB D a fft lmax nlat x q) m = (ok q1, put m a.T T1) := r1
      show run (Prog.bind _ _) m = _
      rw [run_bind_ok r1', r2, put_put]
  obtain ⟨T2, e2, d2⟩ := forL_total (D := D) (f := fun mb T => fB D fft C1 nlat mb T) (xs := List.range npsi)
    (fun mb hmb T hT => fB_total hf C1 (by have := List.mem_range.mp hmb; omega) h3 hT) (cube D m a.T) (cube_dims D m a.T)
  have hCT : cube D (put m a.C C1) a.T = cube D m a.T := cube_put_ne m ha.symm
  obtain ⟨-, q2, hq2, r2⟩ := key (List.range npsi) (fun x hx => List.mem_range.mp hx) q (put m a.C C1) T2 hq (cube_put d1 m a.C)
    (by rw [hCT]; exact e2)
  -- third loop
  obtain ⟨T3, e3, d3⟩ := forL_total (D := D) (f := fC (cs0V lmax) (sn0V lmax) (csV lmax) (snV lmax) lmax npsi nlat) (xs := List.range (2 * lmax + 1))
    (fun i hi C hC => fC_total _ _ _ _ (hr i hi) h2 h3 hC) T2 d2
  obtain ⟨-, r3⟩ := Sim.forL (tab_blind (csV lmax) (snV lmax) (cs0V lmax) (sn0V lmax) a.T) (p := bodyC D a lmax npsi nlat)
    (fun x hx s => simC (a := a) (npsi := npsi) (nlat := nlat) (hr x hx) (by omega) _ _ _ _ s) q2 (put (put m a.C C1) a.T T2) T3 hT
    (by rw [cube_put d2]; exact e3)
  refine ⟨T3, q2, C1, ?_, d3, ?_⟩
  · unfold Num.todAnnulus
    rw [annulusA_eq, e1, ok_bind, annulusB_eq fft lmax npsi nlat h1 h2 h3 d1, ← hz, e2, ok_bind, annulusC_eq lmax npsi nlat hn, e3]
  · show run (Prog.bind (Prog.forL (List.range (2 * lmax + 1)) (bodyA D a npsi nlat) q) (seqAll 1 [loopB D a fft lmax npsi nlat, loopC D a lmax npsi nlat])) m = _
    rw [run_bind_ok r1]
    show run (Prog.bind (Prog.forL (List.range npsi) (bodyB D a fft lmax nlat) q) (seqAll 1 [loopC D a lmax npsi nlat])) _ = _
    rw [run_bind_ok r2]
    show run (Prog.bind (Prog.forL (List.range (2 * lmax + 1)) (bodyC D a lmax npsi nlat) q2) (seqAll 1 [])) _ = _
    rw [run_bind_ok r3, put_put]
    rfl

end Verif.Par
