import Verif.Par.Region
import Verif.Tod.Interp

/-!
# The sample loop as a parallel region

`conviqt_tod_loop`, src/conviqt_math.cpp:1352-1443, called ring after ring by `interpolTOD` (:1332-1342).  Shared data that is stored to: `TODValue`.
Everything else (pointing rows, ring indices, `conviqtarr`, `base_wgt`) is only read.  The buffers `cosang`, `sinang`, `wgt1`, `wgt2`
are private and completely overwritten by every iteration, so no private data is carried from one iteration to the next.
The arithmetic is arbitrary: the results hold bit for bit in floating point.
-/

namespace Verif.Par
open Verif Res Tod

variable {F : Type} [Arith F]

/-- `TODValue[ii] += weight * x`, src/conviqt_math.cpp:1433: index check, load, store. -/
def bumpP (ntod ii : ℕ) (y : F) : Prog ℕ F Unit :=
  if ii < ntod then .load ii (fun v => .store ii (Arith.add v y) (.ret (ok ()))) else .ret (ub "write out of bounds")

/-- Body of the loop over `iphi`, src/conviqt_math.cpp:1422-1434. -/
def phiP (c : Tod.Cfg) (ntod ii : ℕ) (ring : List F) (wgt2 : List F) (ang : List (F × F)) (weight1 : F) (iphi0 : ℤ) (iphi : ℕ) : Prog ℕ F Unit := do
  let w2 ← Prog.lift (rd wgt2 (iphi : ℤ))
  let weight := Arith.mul w2 weight1
  let iphinew := iphi0 + iphi
  let iphinew := if iphinew ≥ c.nphi then iphinew - c.nphi else iphinew
  let x ← Prog.lift (ringDot c ring ang iphinew)
  bumpP ntod ii (Arith.mul weight x)

/-- Body of the loop over samples, src/conviqt_math.cpp:1394-1435, for the ring number `lat`. -/
def sampleP (c : Tod.Cfg) (rows : List (Row F)) (su : SetUp) (ring : List F) (jj : ℕ) (ii : ℕ) : Prog ℕ F Unit := do
  let row ← Prog.lift (rd rows (ii : ℤ))
  let it0 ← Prog.lift (rd su.it (ii : ℤ))
  let frac := Arith.sub (Arith.mul (Arith.sub row.theta c.theta0) (c.invDtheta : F)) (Arith.ofInt it0)
  let wgt1 ← Prog.lift (weightNcm c.npoints frac)
  let cell ← Prog.lift (phiCell c row.phi)
  let wgt2 ← Prog.lift (weightNcm c.npoints cell.2)
  let ang := angles c.npsi row.psi
  let w1 ← Prog.lift (rd wgt1 (((jj : ℤ) + su.off) - it0))
  Prog.forN c.npoints (fun iphi _ => phiP c rows.length ii ring wgt2 ang (Arith.mul (Arith.ofInt 2) w1) cell.1 iphi) ()

/-- The parallel loop for ring number `jj`, src/conviqt_math.cpp:1393-1436. -/
def sampleLoop (c : Tod.Cfg) (rows : List (Row F)) (su : SetUp) (rings : List (List F)) (jj : ℕ) : Loop ℕ F Unit where
  pre _ s := .ret (ok s)
  iters := window c su jj
  body _ ii _ := do
    let ring ← Prog.lift (rd rings (jj : ℤ))
    sampleP c rows su ring jj ii

/-- The parallel regions of the loop over rings, src/conviqt_math.cpp:1332-1342 with 1387-1438: one after the other. -/
def sampleRegion (c : Tod.Cfg) (rows : List (Row F)) (su : SetUp) (rings : List (List F)) : List (Loop ℕ F Unit) :=
  (List.range su.n.toNat).map (sampleLoop c rows su rings)

/-- `schedule(static, 1)`, src/conviqt_math.cpp:1393: the iterations of a loop are numbered in the order in which one thread would execute them. -/
def ompSample (n : ℕ) (xs : List ℕ) : Fin n → List ℕ := fun t => (static 1 xs.length n t).map (fun k => xs.getD k 0)

/-! ## footprints and effects -/

theorem run_liftN {α β : Type} {r : Res α} {a : α} (h : r = ok a) (f : α → Prog ℕ F β) (m : ℕ → F) :
    run (Prog.lift r >>= f) m = run (f a) m := by subst h; rfl

theorem stays_liftN {α β : Type} {W R : Set ℕ} {r : Res α} {f : α → Prog ℕ F β} (h : ∀ a, Stays W R (f a)) : Stays W R (Prog.lift r >>= f) :=
  Stays.bind' h trivial

theorem bump_stays (ntod ii : ℕ) (y : F) : Stays {ii} ∅ (bumpP ntod ii y) := by
  unfold bumpP
  split
  · exact ⟨Or.inl rfl, fun _ => ⟨rfl, trivial⟩⟩
  · trivial

theorem sample_stays (c : Tod.Cfg) (rows : List (Row F)) (su : SetUp) (ring : List F) (jj ii : ℕ) : Stays {ii} ∅ (sampleP c rows su ring jj ii) := by
  unfold sampleP
  refine stays_liftN fun _ => stays_liftN fun _ => stays_liftN fun _ => stays_liftN fun _ => stays_liftN fun _ => stays_liftN fun _ => ?_
  refine Stays.forN _ (fun i _ _ => ?_) _
  unfold phiP
  exact stays_liftN fun _ => stays_liftN fun _ => bump_stays _ _ _

theorem run_bump {ntod ii : ℕ} (h : ii < ntod) (y : F) (m : ℕ → F) :
    run (bumpP ntod ii y) m = (ok (), Function.update m ii (Arith.add (m ii) y)) := by
  unfold bumpP
  rw [if_pos h]
  simp only [run]
  congr!

/-- Alone, an iteration adds its contribution to its sample. -/
theorem run_sample {c : Tod.Cfg} {rows : List (Row F)} {su : SetUp} {ring : List F} {jj ii : ℕ} (hi : ii < rows.length) {row : Row F} {it0 : ℤ}
    (h1 : rd rows (ii : ℤ) = ok row) (h2 : rd su.it (ii : ℤ) = ok it0) {m : ℕ → F} {v : F}
    (h : accum c row it0 ((jj : ℤ) + su.off) ring (m ii) = ok v) : run (sampleP c rows su ring jj ii) m = (ok (), Function.update m ii v) := by
  unfold accum at h
  obtain ⟨wgt1, e1, k1⟩ := bind_eq_ok.mp h
  clear h
  obtain ⟨cell, e2, k2⟩ := bind_eq_ok.mp k1
  clear k1
  obtain ⟨wgt2, e3, k1⟩ := bind_eq_ok.mp k2
  clear k2
  obtain ⟨w1, e4, h⟩ := bind_eq_ok.mp k1
  clear k1
  unfold sampleP
  rw [run_liftN h1, run_liftN h2, run_liftN e1, run_liftN e2, run_liftN e3, run_liftN e4]
  generalize c.npoints = N at h ⊢
  induction N generalizing v with
  | zero =>
    injection h with h
    subst h
    rw [Function.update_eq_self]
    rfl
  | succ N ih =>
    rw [forN_succ] at h
    obtain ⟨v1, e5, h⟩ := bind_eq_ok.mp h
    obtain ⟨w2, e6, h⟩ := bind_eq_ok.mp h
    obtain ⟨x, e7, h⟩ := bind_eq_ok.mp h
    injection h with h
    show run (Prog.bind _ _) m = _
    rw [run_bind_ok (ih e5)]
    unfold phiP
    rw [run_liftN e6, run_liftN e7, run_bump hi, Function.update_idem, Function.update_self, h]

/-- Whether the contribution is defined does not depend on the value it is added to. -/
theorem accum_total {c : Tod.Cfg} {row : Row F} {it0 lat : ℤ} {ring : List F} {a v : F} (h : accum c row it0 lat ring a = ok v) (a' : F) :
    ∃ v', accum c row it0 lat ring a' = ok v' := by
  unfold accum at h ⊢
  obtain ⟨wgt1, e1, k1⟩ := bind_eq_ok.mp h
  clear h
  obtain ⟨cell, e2, k2⟩ := bind_eq_ok.mp k1
  clear k1
  obtain ⟨wgt2, e3, k1⟩ := bind_eq_ok.mp k2
  clear k2
  obtain ⟨w1, e4, h⟩ := bind_eq_ok.mp k1
  clear k1
  dsimp only
  rw [e1, ok_bind, e2, ok_bind, e3, ok_bind, e4, ok_bind]
  generalize c.npoints = N at h ⊢
  induction N generalizing v with
  | zero => exact ⟨a', rfl⟩
  | succ N ih =>
    rw [forN_succ] at h
    obtain ⟨v1, e5, h⟩ := bind_eq_ok.mp h
    obtain ⟨w2, e6, h⟩ := bind_eq_ok.mp h
    obtain ⟨x, e7, h⟩ := bind_eq_ok.mp h
    obtain ⟨v', hv⟩ := ih e5
    rw [forN_succ]
    exact ⟨_, bind_eq_ok.mpr ⟨v', hv, bind_eq_ok.mpr ⟨w2, e6, bind_eq_ok.mpr ⟨x, e7, rfl⟩⟩⟩⟩

/-- Iteration `ii` is defined whatever `TODValue` contains. -/
def SampleOK (c : Tod.Cfg) (rows : List (Row F)) (su : SetUp) (ring : List F) (jj ii : ℕ) : Prop :=
  ii < rows.length ∧ ∃ row it0, rd rows (ii : ℤ) = ok row ∧ rd su.it (ii : ℤ) = ok it0 ∧ ∀ a, ∃ v, accum c row it0 ((jj : ℤ) + su.off) ring a = ok v

/-- The memory holds the list. -/
def Has (m : ℕ → F) (tod : List F) : Prop := ∀ i, ∀ h : i < tod.length, m i = tod[i]

theorem step_ok {c : Tod.Cfg} {rows : List (Row F)} {su : SetUp} {ring : List F} {jj ii : ℕ} {tod tod' : List F} (hl : tod.length = rows.length)
    (h : sampleStep c rows su ring jj tod ii = ok tod') : SampleOK c rows su ring jj ii ∧ tod'.length = rows.length ∧
      ∀ m, Has m tod → ∃ m', run (sampleP c rows su ring jj ii) m = (ok (), m') ∧ Has m' tod' := by
  unfold sampleStep at h
  obtain ⟨row, e1, h⟩ := bind_eq_ok.mp h
  obtain ⟨it0, e2, h⟩ := bind_eq_ok.mp h
  obtain ⟨v, e3, h⟩ := bind_eq_ok.mp h
  obtain ⟨v', e4, h⟩ := bind_eq_ok.mp h
  have hi : ii < tod.length := by
    by_contra hc
    unfold rd at e3
    rw [dif_neg (by push_cast; omega)] at e3
    cases e3
  rw [rd_nat hi] at e3
  injection e3 with e3
  rw [wr_nat v' hi] at h
  injection h with h
  refine ⟨⟨by omega, row, it0, e1, e2, accum_total e4⟩, by rw [← h]; simpa using hl, fun m hm => ⟨_, run_sample (by omega) e1 e2 (v := v') ?_, ?_⟩⟩
  · rw [hm ii hi, e3]; exact e4
  · intro i hi'
    subst h
    rw [List.length_set] at hi'
    by_cases he : i = ii
    · subst he
      simp
    · rw [Function.update_of_ne he, hm i hi', List.getElem_set_ne (fun e => he e.symm)]

theorem fold_ok {c : Tod.Cfg} {rows : List (Row F)} {su : SetUp} {ring : List F} {jj : ℕ} : ∀ (xs : List ℕ) {tod tod' : List F},
    tod.length = rows.length → foldRes (sampleStep c rows su ring jj) tod xs = ok tod' →
    (∀ x ∈ xs, SampleOK c rows su ring jj x) ∧ tod'.length = rows.length ∧
      ∀ m, Has m tod → ∃ m', run (Prog.forL xs (fun ii _ => sampleP c rows su ring jj ii) ()) m = (ok (), m') ∧ Has m' tod'
  | [], tod, tod', hl, h => by
    injection h with h
    subst h
    exact ⟨by simp, hl, fun m hm => ⟨m, rfl, hm⟩⟩
  | x :: xs, tod, tod', hl, h => by
    rw [foldRes_cons] at h
    obtain ⟨tod1, e1, e2⟩ := bind_eq_ok.mp h
    obtain ⟨k1, l1, r1⟩ := step_ok hl e1
    obtain ⟨k2, l2, r2⟩ := fold_ok xs l1 e2
    refine ⟨fun y hy => ?_, l2, fun m hm => ?_⟩
    · rcases List.mem_cons.mp hy with rfl | hy
      · exact k1
      · exact k2 y hy
    · obtain ⟨m1, q1, h1⟩ := r1 m hm
      obtain ⟨m2, q2, h2⟩ := r2 m1 h1
      refine ⟨m2, ?_, h2⟩
      show run (Prog.bind _ _) m = _
      rw [run_bind_ok q1, q2]

/-- No thread-specific shared data. -/
def none' : ℕ → Set ℕ := fun _ => ∅

theorem loop_ok {c : Tod.Cfg} {rows : List (Row F)} {su : SetUp} {rings : List (List F)} {jj : ℕ} {tod tod' : List F} (hl : tod.length = rows.length)
    (h : todLoop c id rows su rings jj tod = ok tod') : Separate none' (fun _ : Unit => True) (sampleLoop c rows su rings jj) ∧ tod'.length = rows.length ∧
      ∀ m, Has m tod → ∃ m', run (Prog.forL (window c su jj) ((sampleLoop c rows su rings jj).body 1) ()) m = (ok (), m') ∧ Has m' tod' := by
  unfold todLoop at h
  obtain ⟨ring, er, h⟩ := bind_eq_ok.mp h
  obtain ⟨k, l, r⟩ := fold_ok _ hl h
  have hb : ∀ t, (sampleLoop c rows su rings jj).body t = fun ii _ => sampleP c rows su ring jj ii := by
    intro t
    funext ii s
    show (Prog.lift (rd rings (jj : ℤ)) >>= fun ring => sampleP c rows su ring jj ii) = _
    rw [er]
    rfl
  refine ⟨⟨fun i => {i}, ∅, fun ii m => (run (sampleP c rows su ring jj ii) m).2, LoopOK.of (s0 := ()) trivial (u := 1) rfl (window_nodup c su jj)
    (fun _ _ => trivial) (fun _ s _ _ => ⟨s, trivial, rfl⟩) (fun t i _ s => ?_) (fun i _ j _ hij l hl hl' => ?_) (fun _ _ _ _ _ h => h)
    (fun _ _ _ _ h => h) (fun _ _ _ _ h => absurd h (by simp [none'])) (fun _ _ _ h => h) (fun t i hi s m _ => ?_)⟩, l, fun m hm => ?_⟩
  · rw [hb]
    exact (sample_stays c rows su ring jj i).mono (fun _ h => Or.inl h)
  · exact hij ((Set.mem_singleton_iff.mp hl).symm.trans (Set.mem_singleton_iff.mp hl'))
  · obtain ⟨hi', row, it0, e1, e2, e3⟩ := k i hi
    obtain ⟨v, hv⟩ := e3 (m i)
    rw [hb]
    refine ⟨(), trivial, ?_, fun _ _ => rfl⟩
    show (run (sampleP c rows su ring jj i) m).1 = _
    rw [run_sample hi' e1 e2 hv]
  · rw [hb]
    exact r m hm

theorem seqAll_append {L V S : Type} (u : ℕ) : ∀ (xs ys : List (Loop L V S)) (s : S) (m : L → V) {s1 : S} {m1 : L → V},
    run (seqAll u xs s) m = (ok s1, m1) → run (seqAll u (xs ++ ys) s) m = run (seqAll u ys s1) m1
  | [], ys, s, m, s1, m1, h => by
    change ((ok s, m) : Res S × (L → V)) = _ at h
    injection h with h1 h2
    injection h1 with h1
    subst h1 h2
    rfl
  | x :: xs, ys, s, m, s1, m1, h => by
    change run (Prog.bind _ _) m = _ at h
    show run (Prog.bind _ _) m = _
    rw [run_bind] at h ⊢
    revert h
    generalize run ((x.pre u s).bind (Prog.forL x.iters (x.body u))) m = r
    rcases r with ⟨r | r | r, m2⟩
    · intro h
      exact seqAll_append u xs ys _ _ h
    · intro h
      injection h with h
      cases h
    · intro h
      injection h with h
      cases h

theorem region_ok {c : Tod.Cfg} {rows : List (Row F)} {su : SetUp} {rings : List (List F)} : ∀ (n : ℕ) {tod tod' : List F}, tod.length = rows.length →
    forN n (todLoop c id rows su rings) tod = ok tod' →
    (∀ lp ∈ (List.range n).map (sampleLoop c rows su rings), Separate none' (fun _ : Unit => True) lp) ∧ tod'.length = rows.length ∧
      ∀ m, Has m tod → ∃ m', run (seqAll 1 ((List.range n).map (sampleLoop c rows su rings)) ()) m = (ok (), m') ∧ Has m' tod'
  | 0, tod, tod', hl, h => by
    injection h with h
    subst h
    exact ⟨by simp, hl, fun m hm => ⟨m, rfl, hm⟩⟩
  | n + 1, tod, tod', hl, h => by
    rw [forN_succ] at h
    obtain ⟨tod1, e1, e2⟩ := bind_eq_ok.mp h
    obtain ⟨k1, l1, r1⟩ := region_ok n hl e1
    obtain ⟨k2, l2, r2⟩ := loop_ok l1 e2
    rw [List.range_succ, List.map_append]
    refine ⟨fun lp hlp => ?_, l2, fun m hm => ?_⟩
    · rcases List.mem_append.mp hlp with hlp | hlp
      · exact k1 lp hlp
      · rw [List.map_singleton, List.mem_singleton] at hlp
        subst hlp
        exact k2
    · obtain ⟨m1, q1, h1⟩ := r1 m hm
      obtain ⟨m2, q2, h2⟩ := r2 m1 h1
      refine ⟨m2, ?_, h2⟩
      rw [seqAll_append 1 _ _ _ _ q1]
      show run (Prog.bind (Prog.forL (window c su n) ((sampleLoop c rows su rings n).body 1) ()) (seqAll 1 [])) m1 = _
      rw [run_bind_ok q2]
      rfl

theorem flatten_map {n : ℕ} (its : Fin n → List ℕ) (f : ℕ → ℕ) : (List.ofFn (fun t => (its t).map f)).flatten = (List.ofFn its).flatten.map f := by
  rw [List.map_flatten, List.map_ofFn]
  rfl

theorem static_dealt_list (chunk : ℕ) {n : ℕ} (hn : 0 < n) (xs : List ℕ) :
    Dealt (fun t : Fin n => (static chunk xs.length n t).map (fun k => xs.getD k 0)) xs := by
  have h := (static_dealt (chunk := chunk) (total := xs.length) hn).map (fun k => xs.getD k 0)
  unfold Dealt
  rw [flatten_map]
  refine h.trans (List.Perm.of_eq ?_)
  refine List.ext_getElem (by simp) (fun i h1 h2 => ?_)
  simp [List.getD_eq_getElem?_getD, h2]

/-! ## the property -/

/-- C74: the sample loops, ring after ring, in any arithmetic: if the sequential program is defined, then with any number `n` of threads and any dealing of
the samples no reachable configuration is a data race, and no thread runs into undefined behaviour or lets an exception escape. -/
theorem C74_samples_safe {c : Tod.Cfg} {rows : List (Row F)} {su : SetUp} {rings : List (List F)} {vals : List F}
    (hseq : interpolate c id rows su rings = ok vals) {n : ℕ} {ds : List (Fin n → List ℕ)} (hd : Deals (sampleRegion c rows su rings) ds)
    {m : ℕ → F} {s : Fin n → Unit} {k : Cfg n ℕ F Unit} (hr : Reach (phases (sampleRegion c rows su rings) ds) m s k) : ¬ Race k ∧ ¬ Broken k :=
  team_safe hd (region_ok su.n.toNat (by simp) hseq).1 (fun _ => trivial) hr

/-- C74: every interleaving of the sample loops ends, with every sample having, bit for bit, the value of the sequential program. -/
theorem C74_samples_result {c : Tod.Cfg} {rows : List (Row F)} {su : SetUp} {rings : List (List F)} {vals : List F}
    (hseq : interpolate c id rows su rings = ok vals) {n : ℕ} {ds : List (Fin n → List ℕ)} (hd : Deals (sampleRegion c rows su rings) ds)
    {m : ℕ → F} (hm : ∀ i < rows.length, m i = Arith.ofInt 0) {s : Fin n → Unit} :
    (∃ m' s', Ends (phases (sampleRegion c rows su rings) ds) m s m' s') ∧
    (∀ m' s', Ends (phases (sampleRegion c rows su rings) ds) m s m' s' → vals.length = rows.length ∧ ∀ i, ∀ hi : i < vals.length, m' i = vals[i]) ∧
    (∀ P ∈ phases (sampleRegion c rows su rings) ds, ∀ m s, ∃ N, ∀ k d, StepsN k (start P m s) d → k ≤ N) := by
  obtain ⟨k, l, r⟩ := region_ok su.n.toNat (tod := List.replicate rows.length (Arith.ofInt 0)) (by simp) hseq
  refine ⟨team_completes hd k m (fun _ => trivial), fun m' s' he => ⟨l, fun i hi => ?_⟩, fun P hP m s => team_bound hd k hP m s⟩
  obtain ⟨m1, e1, h1⟩ := r m (fun i hi => by
    rw [List.length_replicate] at hi
    rw [hm i hi, List.getElem_replicate])
  obtain ⟨s2, m2, e2, h2⟩ := team_eq_seq 1 hd k (fun _ => trivial) he (s0 := ()) trivial (m0 := m) (fun _ _ => rfl)
  have e := e1.symm.trans e2
  injection e with _ e
  subst e
  rw [h2 i (fun _ h => h)]
  exact h1 i hi

/-- C74: the schedule written in the source deals the samples of every ring. -/
theorem C74_samples_schedule {n : ℕ} (hn : 0 < n) (c : Tod.Cfg) (rows : List (Row F)) (su : SetUp) (rings : List (List F)) :
    Deals (sampleRegion c rows su rings) ((List.range su.n.toNat).map (fun jj => ompSample n (window c su jj))) := by
  unfold sampleRegion Deals
  generalize List.range su.n.toNat = xs
  induction xs with
  | nil => exact .nil
  | cons x xs ih => exact .cons (static_dealt_list 1 hn _) ih

end Verif.Par
