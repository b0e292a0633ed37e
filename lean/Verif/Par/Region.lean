import Verif.Par.Loops

/-!
# Regions made of work-shared loops
-/

namespace Verif.Par
open Verif Res

variable {L V S : Type} {n : ℕ}

/-- A loop of a region with the dealing of its iterations and its footprints. -/
structure Job (n : ℕ) (L V S : Type) where
  lp : Loop L V S
  its : Fin n → List ℕ
  W : ℕ → Set L
  R : Set L
  eff : ℕ → (L → V) → L → V

/-- Footprints are right and every iteration is dealt once. -/
structure Job.OK (X : ℕ → Set L) (Good : S → Prop) (j : Job n L V S) : Prop where
  ok : LoopOK j.lp j.W X j.R Good j.eff
  dealt : Dealt j.its j.lp.iters

def Job.phase (j : Job n L V S) : Phase n L V S := j.lp.phase j.its

/-- Combined effect of the loops of a region. -/
noncomputable def effAll : List (Job n L V S) → (L → V) → L → V
  | [], m => m
  | j :: js, m => effAll js (j.lp.eff j.W j.eff m)

variable {X : ℕ → Set L} {Good : S → Prop}

theorem effAll_congr : ∀ {js : List (Job n L V S)} (_ : ∀ j ∈ js, j.OK X Good) {m m' : L → V}
    (_ : ∀ l, (∀ t, l ∉ X t) → m l = m' l), ∀ l, (∀ t, l ∉ X t) → effAll js m l = effAll js m' l
  | [], _, _, _, hm => hm
  | _ :: js, h, _, _, hm => effAll_congr (js := js) (fun k hk => h k (List.mem_cons_of_mem _ hk))
      (Loop.eff_congr (h _ List.mem_cons_self).ok hm)

/-- No reachable configuration of the region is a race or broken. -/
theorem region_safe : ∀ {js : List (Job n L V S)}, (∀ j ∈ js, j.OK X Good) → ∀ {m : L → V} {s : Fin n → S} {c : Cfg n L V S},
    (∀ t, Good (s t)) → Reach (js.map Job.phase) m s c → ¬ Race c ∧ ¬ Broken c
  | [], _, _, _, _, _, hr => by cases hr
  | j :: js, h, m, s, c, hg, hr => by
    have hj := h j List.mem_cons_self
    cases hr with
    | here hs => have := loop_phase hj.ok hj.dealt hg hs; exact ⟨this.1, this.2.1⟩
    | later hs ha hr =>
      have := (loop_phase hj.ok hj.dealt hg hs).2.2 _ ha
      exact region_safe (fun k hk => h k (List.mem_cons_of_mem _ hk)) this.1 hr

/-- However the actions of the threads interleave, the region ends with the combined effect of the loops. -/
theorem region_ends : ∀ {js : List (Job n L V S)}, (∀ j ∈ js, j.OK X Good) → ∀ {m m' : L → V} {s s' : Fin n → S},
    (∀ t, Good (s t)) → Ends (js.map Job.phase) m s m' s' →
    (∀ t, Good (s' t)) ∧ ∀ l, (∀ t, l ∉ X t) → m' l = effAll js m l
  | [], _, _, _, _, _, hg, hr => by cases hr; exact ⟨hg, fun _ _ => rfl⟩
  | j :: js, h, m, m', s, s', hg, hr => by
    have hj := h j List.mem_cons_self
    have hjs : ∀ k ∈ js, k.OK X Good := fun k hk => h k (List.mem_cons_of_mem _ hk)
    cases hr with
    | cons hs ha hr =>
      obtain ⟨hg1, hm1⟩ := (loop_phase hj.ok hj.dealt hg hs).2.2 _ ha
      obtain ⟨hg2, hm2⟩ := region_ends hjs hg1 hr
      exact ⟨hg2, fun l hl => by rw [hm2 l hl]; exact effAll_congr hjs hm1 l hl⟩

/-- A phase has at most a fixed number of actions. -/
theorem phase_bound {j : Job n L V S} (hj : j.OK X Good) (m : L → V) (s : Fin n → S) :
    ∃ N, ∀ k c, StepsN k (start j.phase m s) c → k ≤ N :=
  ⟨_, fun _ _ h => steps_bound (loop_apart hj.ok hj.dealt s) h⟩

/-- From every reachable configuration of a phase the barrier can be reached. -/
theorem phase_completes {j : Job n L V S} (hj : j.OK X Good) {m : L → V} {s : Fin n → S} (hg : ∀ t, Good (s t)) {c : Cfg n L V S}
    (hc : Steps (start j.phase m s) c) : ∃ d s', Steps c d ∧ Arrived d s' := by
  obtain ⟨N, hN⟩ := phase_bound hj m s
  obtain ⟨k, hk⟩ := steps_stepsN hc
  have key : ∀ r k c, N - k ≤ r → StepsN k (start j.phase m s) c → Steps (start j.phase m s) c → ∃ d s', Steps c d ∧ Arrived d s' := by
    intro r
    induction r with
    | zero =>
      intro k c hr hk hc
      by_contra hne
      push Not at hne
      obtain ⟨d, hd⟩ := progress c (loop_phase hj.ok hj.dealt hg hc).2.1 (fun s' => hne c s' Relation.ReflTransGen.refl)
      have h1 := hN _ _ (StepsN.tail hk hd)
      omega
    | succ r ih =>
      intro k c hr hk hc
      by_contra hne
      push Not at hne
      obtain ⟨d, hd⟩ := progress c (loop_phase hj.ok hj.dealt hg hc).2.1 (fun s' => hne c s' Relation.ReflTransGen.refl)
      obtain ⟨e, s', he, ha⟩ := ih (k + 1) d (by omega) (.tail hk hd) (hc.tail hd)
      exact hne e s' (Relation.ReflTransGen.head hd he) ha
  exact key _ k c le_rfl hk hc

/-- The region can always be completed. -/
theorem region_completes : ∀ {js : List (Job n L V S)}, (∀ j ∈ js, j.OK X Good) → ∀ (m : L → V) {s : Fin n → S},
    (∀ t, Good (s t)) → ∃ m' s', Ends (js.map Job.phase) m s m' s'
  | [], _, m, s, _ => ⟨m, s, .nil⟩
  | j :: js, h, m, s, hg => by
    have hj := h j List.mem_cons_self
    obtain ⟨d, s1, hd, ha⟩ := phase_completes hj hg (m := m) (c := start j.phase m s) Relation.ReflTransGen.refl
    obtain ⟨hg1, -⟩ := (loop_phase hj.ok hj.dealt hg hd).2.2 _ ha
    obtain ⟨m', s', hr⟩ := region_completes (fun k hk => h k (List.mem_cons_of_mem _ hk)) d.mem hg1
    exact ⟨m', s', .cons hd ha hr⟩

/-- The whole region, sequentially, as one thread (numbered `u`) would execute it. -/
def seqAll (u : ℕ) : List (Loop L V S) → S → Prog L V S
  | [], s => .ret (ok s)
  | lp :: ls, s => ((lp.pre u s).bind (Prog.forL lp.iters (lp.body u))).bind (seqAll u ls)

theorem seqAll_spec (u : ℕ) : ∀ {js : List (Job n L V S)}, (∀ j ∈ js, j.OK X Good) → ∀ (m : L → V) {s : S}, Good s →
    ∃ s' m', run (seqAll u (js.map Job.lp) s) m = (ok s', m') ∧ Good s' ∧ ∀ l, (∀ t, l ∉ X t) → m' l = effAll js m l
  | [], _, m, s, hg => ⟨s, m, rfl, hg, fun _ _ => rfl⟩
  | j :: js, h, m, s, hg => by
    have hj := h j List.mem_cons_self
    have hjs : ∀ k ∈ js, k.OK X Good := fun k hk => h k (List.mem_cons_of_mem _ hk)
    obtain ⟨s1, m1, e1, hg1, hm1⟩ := run_seq hj.ok u (List.Perm.refl _) s m hg
    obtain ⟨s2, m2, e2, hg2, hm2⟩ := seqAll_spec u hjs m1 hg1
    refine ⟨s2, m2, ?_, hg2, fun l hl => ?_⟩
    · show run (Prog.bind _ _) m = _
      rw [run_bind_ok e1]; exact e2
    · rw [hm2 l hl]
      exact effAll_congr hjs (fun l hl => hm1 l (hl u)) l hl

/-- However many threads there are, whatever iterations they get and however their actions interleave: the result is that of
the sequential program. -/
theorem region_eq_seq (u : ℕ) {js : List (Job n L V S)} (h : ∀ j ∈ js, j.OK X Good) {m m' : L → V} {s s' : Fin n → S} (hg : ∀ t, Good (s t))
    (he : Ends (js.map Job.phase) m s m' s') {s0 : S} (h0 : Good s0) :
    ∃ s1 m1, run (seqAll u (js.map Job.lp) s0) m = (ok s1, m1) ∧ ∀ l, (∀ t, l ∉ X t) → m' l = m1 l := by
  obtain ⟨s1, m1, e, _, hm⟩ := seqAll_spec u h m h0
  exact ⟨s1, m1, e, fun l hl => by rw [(region_ends h hg he).2 l hl, hm l hl]⟩

/-- The run of a region is bounded: after any completed prefix of loops the next one has boundedly many actions. -/
theorem region_bound {js : List (Job n L V S)} (h : ∀ j ∈ js, j.OK X Good) {P : Phase n L V S} (hP : P ∈ js.map Job.phase)
    (m : L → V) (s : Fin n → S) : ∃ N, ∀ k c, StepsN k (start P m s) c → k ≤ N := by
  obtain ⟨j, hj, rfl⟩ := List.mem_map.mp hP
  exact phase_bound (h j hj) m s

end Verif.Par

namespace Verif.Par
open Verif Res

variable {L V S : Type} {n : ℕ} {X : ℕ → Set L} {Good : S → Prop}

/-- Iterations with separate footprints, effects independent of private data. -/
def Separate (X : ℕ → Set L) (Good : S → Prop) (lp : Loop L V S) : Prop := ∃ W R eff, LoopOK lp W X R Good eff

/-- The phases of `n` threads executing the loops `ls`, where `ds` deals the iterations of each loop. -/
def phases (ls : List (Loop L V S)) (ds : List (Fin n → List ℕ)) : List (Phase n L V S) := List.zipWith (fun lp d => lp.phase d) ls ds

/-- `ds` deals the iterations of every loop. -/
abbrev Deals (ls : List (Loop L V S)) (ds : List (Fin n → List ℕ)) : Prop := List.Forall₂ (fun lp d => Dealt d lp.iters) ls ds

theorem jobs_of {ls : List (Loop L V S)} {ds : List (Fin n → List ℕ)} (hd : Deals ls ds) (hs : ∀ lp ∈ ls, Separate X Good lp) :
    ∃ js : List (Job n L V S), (∀ j ∈ js, j.OK X Good) ∧ js.map Job.phase = phases ls ds ∧ js.map Job.lp = ls := by
  induction hd with
  | nil => exact ⟨[], by simp, rfl, rfl⟩
  | @cons lp d ls ds h _ ih =>
    obtain ⟨js, h1, h2, h3⟩ := ih (fun k hk => hs k (List.mem_cons_of_mem _ hk))
    obtain ⟨W, R, eff, hok⟩ := hs lp List.mem_cons_self
    refine ⟨⟨lp, d, W, R, eff⟩ :: js, ?_, ?_, ?_⟩
    · intro j hj
      rcases List.mem_cons.mp hj with rfl | hj
      · exact ⟨hok, h⟩
      · exact h1 j hj
    · show _ :: js.map Job.phase = _ :: phases ls ds
      rw [h2]; rfl
    · show _ :: js.map Job.lp = _
      rw [h3]

theorem team_safe {ls : List (Loop L V S)} {ds : List (Fin n → List ℕ)} (hd : Deals ls ds) (hs : ∀ lp ∈ ls, Separate X Good lp)
    {m : L → V} {s : Fin n → S} (hg : ∀ t, Good (s t)) {c : Cfg n L V S} (hr : Reach (phases ls ds) m s c) : ¬ Race c ∧ ¬ Broken c := by
  obtain ⟨js, h1, h2, -⟩ := jobs_of hd hs
  rw [← h2] at hr
  exact region_safe h1 hg hr

theorem team_completes {ls : List (Loop L V S)} {ds : List (Fin n → List ℕ)} (hd : Deals ls ds) (hs : ∀ lp ∈ ls, Separate X Good lp)
    (m : L → V) {s : Fin n → S} (hg : ∀ t, Good (s t)) : ∃ m' s', Ends (phases ls ds) m s m' s' := by
  obtain ⟨js, h1, h2, -⟩ := jobs_of hd hs
  rw [← h2]
  exact region_completes h1 m hg

theorem team_bound {ls : List (Loop L V S)} {ds : List (Fin n → List ℕ)} (hd : Deals ls ds) (hs : ∀ lp ∈ ls, Separate X Good lp)
    {P : Phase n L V S} (hP : P ∈ phases ls ds) (m : L → V) (s : Fin n → S) : ∃ N, ∀ k c, StepsN k (start P m s) c → k ≤ N := by
  obtain ⟨js, h1, h2, -⟩ := jobs_of hd hs
  rw [← h2] at hP
  exact region_bound h1 hP m s

theorem team_eq_seq (u : ℕ) {ls : List (Loop L V S)} {ds : List (Fin n → List ℕ)} (hd : Deals ls ds) (hs : ∀ lp ∈ ls, Separate X Good lp)
    {m m' : L → V} {s s' : Fin n → S} (hg : ∀ t, Good (s t)) (he : Ends (phases ls ds) m s m' s') {s0 : S} (h0 : Good s0)
    {m0 : L → V} (hm : ∀ l, (∀ t, l ∉ X t) → m l = m0 l) :
    ∃ s1 m1, run (seqAll u ls s0) m0 = (ok s1, m1) ∧ ∀ l, (∀ t, l ∉ X t) → m' l = m1 l := by
  obtain ⟨js, h1, h2, h3⟩ := jobs_of hd hs
  rw [← h2] at he
  obtain ⟨s1, m1, e, _, hm1⟩ := seqAll_spec u h1 m0 h0
  rw [h3] at e
  exact ⟨s1, m1, e, fun l hl => by rw [(region_ends h1 hg he).2 l hl, hm1 l hl]; exact effAll_congr h1 hm l hl⟩

/-- Footprints and effects; the locality of effects follows if some thread number has no extra doubles. -/
theorem LoopOK.of {lp : Loop L V S} {W : ℕ → Set L} {R : Set L} {F : ℕ → (L → V) → L → V} {s0 : S} (h0 : Good s0) {u : ℕ} (hu : X u = ∅)
    (nodup : lp.iters.Nodup) (preStays : ∀ t s, Stays (X t) R (lp.pre t s))
    (preOK : ∀ t s m, Good s → ∃ s', Good s' ∧ (run (lp.pre t s) m).1 = ok s')
    (stays : ∀ t, ∀ i ∈ lp.iters, ∀ s, Stays (W i ∪ X t) R (lp.body t i s))
    (WW : ∀ i ∈ lp.iters, ∀ j ∈ lp.iters, i ≠ j → ∀ l ∈ W i, l ∉ W j) (WX : ∀ i ∈ lp.iters, ∀ t, ∀ l ∈ W i, l ∉ X t)
    (WR : ∀ i ∈ lp.iters, ∀ l ∈ W i, l ∉ R) (XX : ∀ t u, t ≠ u → ∀ l ∈ X t, l ∉ X u) (XR : ∀ t, ∀ l ∈ X t, l ∉ R)
    (effect : ∀ t, ∀ i ∈ lp.iters, ∀ s m, Good s → ∃ s', Good s' ∧ (run (lp.body t i s) m).1 = ok s' ∧
      ∀ l ∈ W i, (run (lp.body t i s) m).2 l = F i m l) : LoopOK lp W X R Good F := by
  refine ⟨nodup, preStays, preOK, stays, WW, WX, WR, XX, XR, effect, fun i hi m m' hm l hl => ?_⟩
  obtain ⟨_, _, _, e1⟩ := effect u i hi s0 m h0
  obtain ⟨_, _, _, e2⟩ := effect u i hi s0 m' h0
  rw [← e1 l hl, ← e2 l hl]
  refine (run_congr (stays u i hi s0) (fun x hx => hm x ?_)).2.1 l (Or.inl (Or.inl hl))
  rw [hu] at hx
  rcases hx with (hx | hx) | hx
  · exact Or.inl hx
  · exact absurd hx (by simp)
  · exact Or.inr hx

end Verif.Par
