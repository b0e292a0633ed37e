import Verif.Par.Kern
import Verif.Num.RingData

/-!
# The region of `conviqt_hemiscm`: it is free of races and computes the coefficients
-/

namespace Verif.Par
open Verif Res

theorem msky_junk {D : Dims} {lmax mb m : ℕ} {l : Cell} (h : l ∈ mskyCells D lmax mb m) : l ∉ junk D := by
  obtain ⟨a, i, k, im, rfl, -, -, hr⟩ := h
  exact fun hj => hj hr

theorem msky_ne {D : Dims} {lmax mb m m' : ℕ} (hne : m ≠ m') {l : Cell} (h : l ∈ mskyCells D lmax mb m) : l ∉ mskyCells D lmax mb m' := by
  obtain ⟨a, i, k, im, rfl, -, hi, -⟩ := h
  rintro ⟨a', i', k', im', h, -, hi', -⟩
  injection h with _ h
  omega

theorem xs_zero (D : Dims) : XS D 0 = junk D := if_pos rfl

theorem empty_xs (D : Dims) (t : ℕ) : ∀ l ∈ XS D t, l ∉ (∅ : Set Cell) := fun _ _ h => h

/-- Increments of the two cubes by one iteration. -/
noncomputable def dmsky (ovf : Res ℤ) (pol : Bool) (s b : Num.Exps) (lmax : ℕ) (ths : List ℝ) (eps : ℝ) (mb m : ℕ) (f : ℝ → ℝ) : ℕ → ℕ → ℕ → ℂ :=
  ∑ lat ∈ Finset.range ths.length, Num.dring ovf pol s b lmax ths eps mb m lat f

section
variable {clk : ℝ} {D : Dims} {ovf : Res ℤ} {v : ℤ} {pol : Bool} {s b : Num.Exps} {lmax npsi : ℕ} {ths : List ℝ} {eps : ℝ}

theorem ts_exists (h0 : 0 < lmax) : ∃ g q, Num.mkGen lmax ths eps = ok g ∧ q = (⟨g, g, List.replicate (lmax + 1) 0, List.replicate (lmax + 1) 0⟩ : Num.TS) ∧
    Num.TSOK lmax ths eps q := by
  obtain ⟨g, e, hT, hf⟩ := Num.tables_mkGen (ths := ths) (eps := eps) h0
  exact ⟨g, _, e, rfl, hT, Or.inl hf, hT, Or.inl hf, by simp, by simp⟩

theorem prof_pre_stays (mb t : ℕ) (q : Num.TS) {R : Set Cell} : Stays (XS D t) R ((kernLoop clk D ovf pol s b lmax ths.length mb).pre t q) := by
  show Stays _ _ (initP clk mb t >>= fun _ => .ret (ok q))
  refine Stays.bind' (fun _ => stays_ret _) ?_
  unfold initP
  split
  · unfold profP
    split
    · rename_i h
      subst h
      rw [xs_zero]
      exact Stays.bind' (fun _ => stays_add (show Cell.nInit ∈ junk D from trivial) _) (stays_add (show Cell.tInit ∈ junk D from trivial) _)
    · trivial
  · trivial

theorem prof_pre_ok (mb t : ℕ) (q : Num.TS) (m : Cell → ℝ) : (run ((kernLoop clk D ovf pol s b lmax ths.length mb).pre t q) m).1 = ok q := by
  show (run (initP clk mb t >>= fun _ => .ret (ok q)) m).1 = _
  unfold initP
  split
  · obtain ⟨m', e, -⟩ := run_prof t .tInit .nInit clk m
    rw [run_bind_ok' e]; rfl
  · rfl

theorem prof_pre_one (mb : ℕ) (q : Num.TS) : (kernLoop clk D ovf pol s b lmax ths.length mb).pre 1 q = .ret (ok q) := by
  show (initP clk mb 1 >>= fun _ => .ret (ok q)) = _
  unfold initP
  split <;> rfl

theorem sepK (hovf : ovf = ok v) (h : Num.KernelOK pol s b lmax npsi) (h1 : D.n1 = 2 * lmax + 1) (h2 : D.n2 = npsi) (h3 : D.n3 = ths.length) {mb : ℕ}
    (hmb : mb < npsi) : Separate (XS D) (Num.TSOK lmax ths eps) (kernLoop clk D ovf pol s b lmax ths.length mb) := by
  obtain ⟨_, q0, -, -, hq0⟩ := ts_exists (ths := ths) (eps := eps) h.pos
  refine ⟨mskyCells D lmax mb, ∅, fun msky m => put2 m ((cube D m .C1).plus (dmsky ovf pol s b lmax ths eps mb msky id))
      ((cube D m .C2).plus (dmsky ovf pol s b lmax ths eps mb msky (Real.pi - ·))),
    LoopOK.of hq0 (xs_one D) List.nodup_range (fun t q => prof_pre_stays mb t q) (fun t q m hg => ⟨q, hg, prof_pre_ok mb t q m⟩)
      (fun t i _ q => mskyP_stays clk D ovf pol s b lmax ths.length mb t i q (fun ht => ?_) (fun _ h => Or.inl h))
      (fun i _ j _ hij l hl => msky_ne hij hl) (fun i _ t l hl hx => msky_junk hl (xs_mem hx).2) (fun _ _ _ _ h => h) (xs_xx D)
      (empty_xs D) (fun t i hi q m hg => ?_)⟩
  · subst ht
    exact ⟨Or.inr (by rw [xs_zero]; trivial), Or.inr (by rw [xs_zero]; trivial)⟩
  · have hi' : i ≤ lmax := by have := List.mem_range.mp hi; omega
    obtain ⟨q', hq', e⟩ := Num.mskyBody_ok hovf h hi' hmb hg (C1 := cube D m .C1) (C2 := cube D m .C2) ⟨h1, h2, h3⟩ ⟨h1, h2, h3⟩
    obtain ⟨e1, e2⟩ := sim_msky_any clk D ovf pol s b lmax ths.length mb i t q m e
    refine ⟨q', hq', e1, fun l hl => ?_⟩
    obtain ⟨a, i', k, im, rfl, -⟩ := hl
    exact e2 _ (by simp) (by simp)

/-- What iteration `ii` of the table loop stores. -/
def tabCells (D : Dims) (ii : ℕ) : Set Cell := {l | (l = .cs ii ∨ l = .sn ii ∨ l = .cs0 ii ∨ l = .sn0 ii) ∧ ii < D.n1}

/-- Memory after filling entry `ii`. -/
noncomputable def putTab (lmax ii : ℕ) (m : Cell → ℝ) : Cell → ℝ :=
  Function.update (Function.update (Function.update (Function.update m (.cs ii) (csV lmax ii)) (.sn ii) (snV lmax ii)) (.cs0 ii) (cs0V lmax ii))
    (.sn0 ii) (sn0V lmax ii)

theorem run_tabBody (lmax ii : ℕ) (q : Num.TS) (m : Cell → ℝ) : run (tabBody lmax ii q) m = (ok q, putTab lmax ii m) := by
  unfold tabBody
  rw [run_wr_bind, run_wr_bind, run_wr_bind, run_wr_bind]
  rfl

theorem tabBody_stays {W R : Set Cell} (lmax : ℕ) {ii : ℕ} (hi : ii < D.n1) (q : Num.TS) (hW : tabCells D ii ⊆ W) : Stays W R (tabBody lmax ii q) := by
  unfold tabBody
  exact Stays.bind' (fun _ => Stays.bind' (fun _ => Stays.bind' (fun _ => Stays.bind' (fun _ => stays_ret _)
    (stays_wr (hW ⟨by simp, hi⟩) _)) (stays_wr (hW ⟨by simp, hi⟩) _)) (stays_wr (hW ⟨by simp, hi⟩) _)) (stays_wr (hW ⟨by simp, hi⟩) _)

theorem sepT (h0 : 0 < lmax) (h1 : D.n1 = 2 * lmax + 1) : Separate (XS D) (Num.TSOK lmax ths eps) (tabLoop lmax) := by
  obtain ⟨_, q0, -, -, hq0⟩ := ts_exists (ths := ths) (eps := eps) h0
  have hi : ∀ i ∈ (tabLoop lmax).iters, i < D.n1 := fun i h => by have := List.mem_range.mp h; omega
  refine ⟨tabCells D, ∅, fun ii m => putTab lmax ii m,
    LoopOK.of hq0 (xs_one D) List.nodup_range (fun _ _ => trivial) (fun _ s m hg => ⟨s, hg, rfl⟩)
      (fun t i h q => tabBody_stays lmax (hi i h) q (fun _ h => Or.inl h)) (fun i _ j _ hij l hl hl' => ?_)
      (fun i _ t l hl hx => ?_) (fun _ _ _ _ h => h) (xs_xx D) (empty_xs D) (fun t i _ q m hg => ⟨q, hg, ?_, fun l _ => ?_⟩)⟩
  · obtain ⟨h1, -⟩ := hl
    obtain ⟨h2, -⟩ := hl'
    rcases h1 with rfl | rfl | rfl | rfl <;> rcases h2 with h2 | h2 | h2 | h2 <;> first | (injection h2 with h2; exact hij h2) | cases h2
  · have hx := (xs_mem hx).2
    obtain ⟨h1, h2⟩ := hl
    rcases h1 with rfl | rfl | rfl | rfl <;> exact hx h2
  · show (run (tabBody lmax i q) m).1 = _
    rw [run_tabBody]
  · show (run (tabBody lmax i q) m).2 l = _
    rw [run_tabBody]

theorem kern_separate (hovf : ovf = ok v) (h : Num.KernelOK pol s b lmax npsi) (h1 : D.n1 = 2 * lmax + 1) (h2 : D.n2 = npsi) (h3 : D.n3 = ths.length) :
    ∀ lp ∈ kernRegion clk D ovf pol s b lmax npsi ths.length, Separate (XS D) (Num.TSOK lmax ths eps) lp := by
  intro lp hlp
  unfold kernRegion at hlp
  rcases List.mem_append.mp hlp with hlp | hlp
  · obtain ⟨mb, hmb, rfl⟩ := List.mem_map.mp hlp
    exact sepK hovf h h1 h2 h3 (List.mem_range.mp hmb)
  · rw [List.mem_singleton] at hlp
    subst hlp
    exact sepT h.pos h1

/-! ## the sequential region -/

theorem plus_has {C : Num.A3 ℂ} (hC : HasDims C D) (d : ℕ → ℕ → ℕ → ℂ) : HasDims (C.plus d) D := hC

theorem put2_plus {m : Cell → ℝ} (d1 d2 e1 e2 : ℕ → ℕ → ℕ → ℂ) :
    put2 (put2 m ((cube D m .C1).plus d1) ((cube D m .C2).plus d2))
      ((cube D (put2 m ((cube D m .C1).plus d1) ((cube D m .C2).plus d2)) .C1).plus e1)
      ((cube D (put2 m ((cube D m .C1).plus d1) ((cube D m .C2).plus d2)) .C2).plus e2) =
    put2 m ((cube D m .C1).plus (d1 + e1)) ((cube D m .C2).plus (d2 + e2)) := by
  obtain ⟨c1, c2⟩ := cube_put2 (plus_has (cube_dims D m .C1) d1) (plus_has (cube_dims D m .C2) d2) m
  rw [c1, c2, put2_put2, Num.A3.plus_plus, Num.A3.plus_plus]

theorem put2_zero (m : Cell → ℝ) : put2 m ((cube D m .C1).plus 0) ((cube D m .C2).plus 0) = m := by
  rw [Num.A3.plus_zero, Num.A3.plus_zero, put2_cube]

theorem seq_msky (hovf : ovf = ok v) (h : Num.KernelOK pol s b lmax npsi) (h1 : D.n1 = 2 * lmax + 1) (h2 : D.n2 = npsi) (h3 : D.n3 = ths.length) {mb : ℕ}
    (hmb : mb < npsi) : ∀ (xs : List ℕ), (∀ x ∈ xs, x ≤ lmax) → ∀ (q : Num.TS) (m : Cell → ℝ), Num.TSOK lmax ths eps q →
    ∃ q', Num.TSOK lmax ths eps q' ∧ run (Prog.forL xs (mskyP clk D ovf pol s b lmax ths.length mb 1) q) m =
      (ok q', put2 m ((cube D m .C1).plus (xs.map (fun x => dmsky ovf pol s b lmax ths eps mb x id)).sum)
        ((cube D m .C2).plus (xs.map (fun x => dmsky ovf pol s b lmax ths eps mb x (Real.pi - ·))).sum))
  | [], _, q, m, hq => ⟨q, hq, by simp only [List.map_nil, List.sum_nil]; rw [put2_zero]; rfl⟩
  | x :: xs, hx, q, m, hq => by
    obtain ⟨q1, hq1, e⟩ := Num.mskyBody_ok hovf h (hx x List.mem_cons_self) hmb hq (C1 := cube D m .C1) (C2 := cube D m .C2) ⟨h1, h2, h3⟩ ⟨h1, h2, h3⟩
    obtain ⟨q1', A, B, hS, -, -, r⟩ := sim_msky clk D ovf pol s b lmax ths.length mb x 1 (by decide) q m _ e
    simp only [Prod.mk.injEq] at hS
    obtain ⟨rfl, rfl, rfl⟩ := hS
    obtain ⟨q2, hq2, e2⟩ := seq_msky hovf h h1 h2 h3 hmb xs (fun y hy => hx y (List.mem_cons_of_mem _ hy)) q1
      (put2 m ((cube D m .C1).plus (dmsky ovf pol s b lmax ths eps mb x id)) ((cube D m .C2).plus (dmsky ovf pol s b lmax ths eps mb x (Real.pi - ·)))) hq1
    refine ⟨q2, hq2, ?_⟩
    show run (Prog.bind _ _) m = _
    rw [run_bind_ok r]
    refine e2.trans ?_
    rw [put2_plus, List.map_cons, List.map_cons, List.sum_cons, List.sum_cons]

/-- Memory with the tables filled. -/
noncomputable def putTabs (lmax : ℕ) (xs : List ℕ) (m : Cell → ℝ) : Cell → ℝ := xs.foldl (fun m ii => putTab lmax ii m) m

theorem run_tabs (lmax : ℕ) : ∀ (xs : List ℕ) (q : Num.TS) (m : Cell → ℝ),
    run (Prog.forL xs (fun ii q => tabBody lmax ii q) q) m = (ok q, putTabs lmax xs m)
  | [], _, _ => rfl
  | x :: xs, q, m => by
    show run (Prog.bind _ _) m = _
    rw [run_bind_ok (run_tabBody lmax x q m), run_tabs lmax xs]
    rfl

theorem putTabs_cub (lmax : ℕ) : ∀ (xs : List ℕ) (m : Cell → ℝ) (a : Arr) (i j k : ℕ) (im : Bool),
    putTabs lmax xs m (.cub a i j k im) = m (.cub a i j k im)
  | [], _, _, _, _, _, _ => rfl
  | x :: xs, m, a, i, j, k, im => by
    show putTabs lmax xs (putTab lmax x m) _ = _
    rw [putTabs_cub lmax xs]
    simp [putTab, Function.update_apply]

theorem putTabs_tab (lmax : ℕ) : ∀ (xs : List ℕ) (m : Cell → ℝ) (i : ℕ),
    putTabs lmax xs m (.cs i) = (if i ∈ xs then csV lmax i else m (.cs i)) ∧ putTabs lmax xs m (.sn i) = (if i ∈ xs then snV lmax i else m (.sn i)) ∧
    putTabs lmax xs m (.cs0 i) = (if i ∈ xs then cs0V lmax i else m (.cs0 i)) ∧ putTabs lmax xs m (.sn0 i) = (if i ∈ xs then sn0V lmax i else m (.sn0 i))
  | [], _, _ => by simp [putTabs]
  | x :: xs, m, i => by
    have ih := putTabs_tab lmax xs (putTab lmax x m) i
    have e : putTabs lmax (x :: xs) m = putTabs lmax xs (putTab lmax x m) := rfl
    rw [e, ih.1, ih.2.1, ih.2.2.1, ih.2.2.2]
    by_cases hi : i ∈ xs
    · simp [hi]
    · by_cases hx : i = x
      · subst hx; simp [hi, putTab, Function.update_apply]
      · simp [hi, hx, putTab, Function.update_apply]

theorem seq_kern (hovf : ovf = ok v) (h : Num.KernelOK pol s b lmax npsi) (h1 : D.n1 = 2 * lmax + 1) (h2 : D.n2 = npsi) (h3 : D.n3 = ths.length) :
    ∀ (mbs : List ℕ), (∀ mb ∈ mbs, mb < npsi) → ∀ (q : Num.TS) (m : Cell → ℝ), Num.TSOK lmax ths eps q →
    ∃ q', run (seqAll 1 (mbs.map (kernLoop clk D ovf pol s b lmax ths.length) ++ [tabLoop lmax]) q) m = (ok q', putTabs lmax (List.range (2 * lmax + 1))
      (put2 m ((cube D m .C1).plus (mbs.map (fun mb => ∑ x ∈ Finset.range (lmax + 1), dmsky ovf pol s b lmax ths eps mb x id)).sum)
        ((cube D m .C2).plus (mbs.map (fun mb => ∑ x ∈ Finset.range (lmax + 1), dmsky ovf pol s b lmax ths eps mb x (Real.pi - ·))).sum)))
  | [], _, q, m, hq => by
    refine ⟨q, ?_⟩
    simp only [List.map_nil, List.sum_nil]
    rw [put2_zero]
    show run (Prog.bind (Prog.forL (List.range (2 * lmax + 1)) (fun ii q => tabBody lmax ii q) q) (seqAll 1 [])) m = _
    rw [run_bind_ok (run_tabs lmax _ q m)]
    rfl
  | mb :: mbs, hmb, q, m, hq => by
    obtain ⟨q1, hq1, e1⟩ := seq_msky (clk := clk) hovf h h1 h2 h3 (hmb mb List.mem_cons_self) (List.range (lmax + 1))
      (fun x hx => by have := List.mem_range.mp hx; omega) q m hq
    rw [Num.perm_sum (List.Perm.refl _), Num.perm_sum (List.Perm.refl _)] at e1
    obtain ⟨q2, e2⟩ := seq_kern hovf h h1 h2 h3 mbs (fun y hy => hmb y (List.mem_cons_of_mem _ hy)) q1 _ hq1
    refine ⟨q2, ?_⟩
    show run (Prog.bind (Prog.bind ((kernLoop clk D ovf pol s b lmax ths.length mb).pre 1 q) (Prog.forL (List.range (lmax + 1))
      (mskyP clk D ovf pol s b lmax ths.length mb 1))) (seqAll 1 (mbs.map _ ++ [tabLoop lmax]))) m = _
    rw [prof_pre_one]
    show run (Prog.bind (Prog.forL (List.range (lmax + 1)) (mskyP clk D ovf pol s b lmax ths.length mb 1) q) _) m = _
    rw [run_bind_ok e1, e2, put2_plus, List.map_cons, List.map_cons, List.sum_cons, List.sum_cons]

end

end Verif.Par
