import Verif.Par.Props
import Verif.Par.Samples
import Verif.Tod.Middle
import Verif.Tod.Outcome
import Verif.Num.GridPoint

/-!
# C74 for the samples of a job; concrete cases; a race that is found
-/

namespace Verif.Par
open Verif Res Tod

/-- C74: for the rows of one hemisphere of any job that meets the laws (colatitudes in range, sorted, defined values), with any number of threads:
no race and no failure is reachable, and the region ends with every sample having the value the job specification assigns to it. -/
theorem C74_samples_of_job {F : Type} [Arith F] {e : Env F} {Ang : F → Prop} (hL : Laws e Ang) (south : Bool) (part : List (Row F))
    (hA : ∀ r ∈ part, Ang r.theta ∧ Arith.lt Arith.halfpi r.theta = false)
    (hs : part.Pairwise (fun p q => Arith.lt q.theta p.theta = false))
    (hv : ∀ r ∈ part, ∃ v, specF e south r.phi r.theta r.psi = ok v) :
    ∃ su, (if part.length ≠ 0 then setUp e.cfg part else ok ⟨[], 0, 0⟩) = ok su ∧
      ∀ {n : ℕ} {ds : List (Fin n → List ℕ)},
        Deals (sampleRegion e.cfg part su ((List.range su.n.toNat).map (fun p => e.ring south (su.off.toNat + p)))) ds →
        ∀ {m : ℕ → F}, (∀ i < part.length, m i = Arith.ofInt 0) → ∀ {s : Fin n → Unit},
          (∀ k, Reach (phases (sampleRegion e.cfg part su ((List.range su.n.toNat).map (fun p => e.ring south (su.off.toNat + p)))) ds) m s k →
            ¬ Race k ∧ ¬ Broken k) ∧
          ∀ m' s', Ends (phases (sampleRegion e.cfg part su ((List.range su.n.toNat).map (fun p => e.ring south (su.off.toNat + p)))) ds) m s m' s' →
            ∀ i, ∀ hi : i < part.length, m' i = valF e south part[i].phi part[i].theta part[i].psi := by
  have hL' : Laws { e with sched := id } Ang := ⟨hL.verb, hL.halfpi, hL.fold, hL.fold_le, hL.asymm, hL.cotrans, hL.sort, fun l => List.Perm.refl l,
    hL.nan, hL.ring_len, hL.kern, hL.itheta_ok, hL.itheta_anti⟩
  obtain ⟨su, h⟩ := hemi_ok hL' south part hA hs hv
  refine ⟨su, h.run, fun {n ds} hd {m} hm {s} => ⟨fun k hk => C74_samples_safe h.interp hd hk, fun m' s' he i hi => ?_⟩⟩
  obtain ⟨-, h2⟩ := (C74_samples_result h.interp hd hm (s := s)).2.1 m' s' he
  rw [h2 i (by simpa using hi), List.getElem_map]
  rfl

/-! ## concrete cases -/

/-- Four threads, lmax 2, two rings: the hypotheses of C74_coefficients_safe, C74_synthesis_safe, C74_terminates and C74_result are met. -/
example : ∃ g, Num.mkGen 2 [1, 2] (1 / 10 ^ 30) = ok g ∧ Num.KernelOK true Num.wExps Num.wExps 2 3 ∧ Num.IsBackward (Num.dft 5) (2 * 2 + 1) ∧
    Deals (kernRegion 1 (dims 2 3 2) (ok 0) true Num.wExps Num.wExps 2 3 2) (ompKern 4 2 3) ∧
    Deals (annRegion (dims 2 3 2) ⟨.C1, .T1⟩ (Num.dft 5) 2 3 2) (ompAnn 4 2 3) ∧ Num.wOrders.OK 2 3 := by
  obtain ⟨g, _, hg, -⟩ := ts_exists (ths := [1, 2]) (eps := 1 / 10 ^ 30) (lmax := 2) (by norm_num)
  exact ⟨g, hg, Num.wKernelOK, Num.dft_backward 5, static_deals_kern _ _ _ _ _ _ _ _ _ (by norm_num), static_deals_ann _ _ _ _ _ _ (by norm_num),
    Num.wOrders_ok⟩

/-- The three regions really have a joint execution from zeroed cubes. -/
example : ∃ T1 T2, ∃ m3 : Cell → ℝ, Num.kernelCubes (ok 0) Num.wOrders (Num.dft 5) true Num.wExps Num.wExps 2 3 [1, 2] (1 / 10 ^ 30) = ok (T1, T2) ∧
    m3 (.cub .T1 4 2 1 false) = (T1.val 4 2 1).re ∧ m3 (.cub .T2 0 1 0 true) = (T2.val 0 1 0).im := by
  obtain ⟨g, _, hg, -⟩ := ts_exists (ths := [1, 2]) (eps := 1 / 10 ^ 30) (lmax := 2) (by norm_num)
  have d0 : Deals (kernRegion 1 (dims 2 3 [1, 2].length) (ok 0) true Num.wExps Num.wExps 2 3 [1, 2].length) (ompKern 4 2 3) :=
    static_deals_kern _ _ _ _ _ _ _ _ _ (by norm_num)
  have d1 : Deals (annRegion (dims 2 3 [1, 2].length) ⟨.C1, .T1⟩ (Num.dft 5) 2 3 [1, 2].length) (ompAnn 4 2 3) := static_deals_ann _ _ _ _ _ _ (by norm_num)
  have d2 : Deals (annRegion (dims 2 3 [1, 2].length) ⟨.C2, .T2⟩ (Num.dft 5) 2 3 [1, 2].length) (ompAnn 4 2 3) := static_deals_ann _ _ _ _ _ _ (by norm_num)
  obtain ⟨⟨m1, s1, e1⟩, -⟩ := C74_terminates rfl Num.wKernelOK (Num.dft_backward 5) (a := ⟨.C1, .T1⟩) (by decide) d0 d1 hg (fun _ => 0)
  obtain ⟨-, ⟨m2, s2, e2⟩, -⟩ := C74_terminates rfl Num.wKernelOK (Num.dft_backward 5) (a := ⟨.C1, .T1⟩) (by decide) d0 d1 hg m1
  obtain ⟨-, ⟨m3, s3, e3⟩, -⟩ := C74_terminates rfl Num.wKernelOK (Num.dft_backward 5) (a := ⟨.C2, .T2⟩) (by decide) d0 d2 hg m2
  obtain ⟨T1, T2, e, h⟩ := C74_result rfl Num.wKernelOK (Num.dft_backward 5) hg d0 d1 d2 (fun _ _ _ _ _ => rfl) e1 e2 e3 Num.wOrders_ok
  exact ⟨T1, T2, m3, e, (h 4 2 1 (by norm_num) (by norm_num) (by simp)).1.1, (h 0 1 0 (by norm_num) (by norm_num) (by simp)).2.2⟩

noncomputable def demoPart : List (Row ℝ) := [⟨1, 1, 2, 0, 0⟩, ⟨4, 3 / 2, 5, 0, 1⟩]

/-- Two samples of the northern hemisphere meet the hypotheses of `C74_samples_of_job`; with three threads. -/
example : ∃ su, setUp demoEnv.cfg demoPart = ok su ∧
    Deals (sampleRegion demoEnv.cfg demoPart su ((List.range su.n.toNat).map (fun p => demoEnv.ring false (su.off.toNat + p))))
      ((List.range su.n.toNat).map (fun jj => ompSample 3 (window demoEnv.cfg su jj))) ∧
    ∀ m' s', Ends (phases (sampleRegion demoEnv.cfg demoPart su
        ((List.range su.n.toNat).map (fun p => demoEnv.ring false (su.off.toNat + p)))) ((List.range su.n.toNat).map (fun jj => ompSample 3 (window demoEnv.cfg su jj))))
      (fun _ => 0) (fun _ => ()) m' s' → m' 1 = valF demoEnv false 4 (3 / 2) 5 := by
  have hp := Real.pi_gt_three
  have hlt : ∀ t : ℝ, t ≤ 3 / 2 → Arith.lt Arith.halfpi t = false ∧ Arith.lt t Arith.halfpi = true := by
    intro t ht
    rw [RealArith.lt_false, RealArith.lt_iff]
    show t ≤ Real.pi / 2 ∧ t < Real.pi / 2
    constructor <;> linarith
  have hspec : ∀ p t q : ℝ, t ≤ 3 / 2 → ∃ v, specF demoEnv false p t q = ok v := by
    intro p t q ht
    have h := sampleSpec_real demoEnv_ok (by simp [demoEnv, Tod.Cfg.nphi]) p t q
    change ∃ v, specF demoEnv (!(Arith.lt t Arith.halfpi)) p (foldGt t) q = ok v at h
    rw [(hlt t ht).2] at h
    unfold foldGt at h
    rw [(hlt t ht).1] at h
    exact h
  obtain ⟨su, h1, h2⟩ := C74_samples_of_job (laws_real demoEnv_ok) false demoPart
    (fun r hr => ⟨trivial, (hlt _ (by rcases List.mem_pair.mp hr with rfl | rfl <;> norm_num)).1⟩)
    (by simp [RealArith.lt_false, demoPart]; norm_num)
    (fun r hr => hspec _ _ _ (by rcases List.mem_pair.mp hr with rfl | rfl <;> norm_num))
  refine ⟨su, by rwa [if_pos (by simp [demoPart])] at h1, C74_samples_schedule (by norm_num) _ _ _ _, fun m' s' he => ?_⟩
  exact (h2 (C74_samples_schedule (by norm_num) _ _ _ _) (m := fun _ => 0) (fun _ _ => by simp [Arith.ofInt]) (s := fun _ => ())).2 m' s' he 1 (by simp [demoPart])

/-- Nine iterations in chunks of 8 on two threads, and five single ones on two threads. -/
example : static 8 9 2 0 = [0, 1, 2, 3, 4, 5, 6, 7] ∧ static 8 9 2 1 = [8] ∧ static 1 5 2 0 = [0, 2, 4] ∧ static 1 5 2 1 = [1, 3] := by decide

/-- Two threads that both update the double `l` (load, then store) race for it. -/
theorem update_race {L V S : Type} {P : Phase 2 L V S} {s : Fin 2 → S} {l : L} {k : V → Prog L V S} (h : ∀ t, P t (s t) = .load l k)
    (hk : ∀ v, Stores (k v) l) (m : L → V) : ∃ c, Reach [P] m s c ∧ Race c := by
  classical
  refine ⟨⟨m, Function.update (fun t => P t (s t)) 0 (k (m l))⟩, .here (Relation.ReflTransGen.single ?_), 0, 1, l, by decide, ?_, Or.inl ⟨k, ?_⟩⟩
  · convert Step.load (c := start P m s) 0 l k (h 0) using 1
    simp only [start]
  · dsimp only
    rw [Function.update_self]
    exact hk _
  · dsimp only
    rw [Function.update_of_ne (by decide)]
    exact h 1

/-- Without the guard `omp_get_thread_num() == 0` two threads would race for the counter. -/
example (m : Cell → ℝ) : ∃ c : Cfg 2 Cell ℝ Unit, Reach [fun _ _ => profP 0 .tPrep .nPrep 1] m (fun _ => ()) c ∧ Race c :=
  update_race (l := .tPrep) (fun _ => rfl) (fun _ => ⟨_, _, rfl⟩) m

/-- An element updated by two threads would be a race, too. -/
example (m : Cell → ℝ) : ∃ c : Cfg 2 Cell ℝ Unit, Reach [fun _ _ => incP (dims 1 1 1) .C1 0 0 0 1 1] m (fun _ => ()) c ∧ Race c :=
  update_race (l := .cub .C1 0 0 0 false) (fun _ => by
    unfold incP
    rw [show elem (dims 1 1 1) 0 0 0 = ok (0, 0, 0) from by decide]
    rfl) (fun _ => ⟨_, _, rfl⟩) m

end Verif.Par
