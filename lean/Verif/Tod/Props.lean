import Verif.Tod.Stuck

/-!
# Properties of `convolve`

The theorems hold for any number type `F` with the operations of `Arith` – no algebraic law is used
except the order laws collected in `Laws` (comparison of the colatitudes that occur) and `TagLaw`
(row numbers survive a round trip through the signal column).  `job e n R` is the job of `n` ranks where
rank `r` calls `convolve` with the rows `R r`; `Returns n P v`: every rank returns normally and
rank `r`'s buffer then holds `v r`.
-/

namespace Verif.Tod
open Verif Res Spmd

variable {F : Type} [Arith F]

/-- The samples of the job, in rank order. -/
def samples (n : Nat) (R : Nat → List (Row F)) : List (Row F) := ((List.range n).map R).flatten

/-- Hypotheses on a job that are needed for the analysis of a normal return: order laws, row numbers
representable, every sample has a value (its evaluation is free of undefined behaviour). -/
structure Valid (e : Env F) (Ang : F → Prop) (n : Nat) (R : Nat → List (Row F)) : Prop where
  ranks : 1 ≤ n
  laws : Laws e Ang
  tags : TagLaw F (samples n R).length
  ang : ∀ r < n, ∀ y ∈ R r, Ang y.theta
  defined : ∀ r < n, ∀ y ∈ R r, ∃ v, sampleSpec e y.phi y.theta y.psi = ok v

theorem samples_length (n : Nat) (R : Nat → List (Row F)) : (samples n R).length = total R n := by
  unfold samples total before
  rw [List.length_flatten, List.map_map]; rfl

/-- A job that returns normally returns exactly `resultRows`. -/
theorem returns_eq {e : Env F} {Ang : F → Prop} {n : Nat} {R : Nat → List (Row F)} (hV : Valid e Ang n R)
    {v : Nat → List (Row F)} (h : Returns n (job e n R) v) :
    ∀ r < n, v r = resultRows e (before R r) (R r) := by
  have hT : TagLaw F (total R n) := by rw [← samples_length]; exact hV.tags
  obtain ⟨hr, H, bounds, hH, hB, hp⟩ := job_returns_inv e hV.ranks R hT h
  have := (convolve_exec hV.laws hV.ranks R hT hV.ang hr hV.defined H bounds hH hB hp).finish hV.ranks
  exact Returns.unique h this

/-- C01. -/
theorem C01_rows_in_place {e : Env F} {Ang : F → Prop} {n : Nat} {R : Nat → List (Row F)}
    (hV : Valid e Ang n R) {v : Nat → List (Row F)} (h : Returns n (job e n R) v) :
    ∀ r < n, (v r).length = (R r).length ∧
      (v r).map (fun y => (y.phi, y.theta, y.psi)) = (R r).map (fun y => (y.phi, y.theta, y.psi)) := by
  intro r hr
  rw [returns_eq hV h r hr]
  refine ⟨by simp [resultRows], ?_⟩
  apply List.ext_getElem (by simp [resultRows])
  intro i h1 h2
  simp [resultRows]

/-- C03: there is a function of the sample's own angles that gives the signal in every job. -/
theorem C03_sample_independent (e : Env F) : ∃ g : F → F → F → F,
    (∀ phi theta psi s, sampleSpec e phi theta psi = ok s → g phi theta psi = calibSpec e s) ∧
    ∀ (Ang : F → Prop) (n : Nat) (R : Nat → List (Row F)), Valid e Ang n R → ∀ v, Returns n (job e n R) v →
      ∀ r < n, (v r).map Row.sig = (R r).map (fun y => g y.phi y.theta y.psi) := by
  refine ⟨fun phi theta psi => calibSpec e (val e phi theta psi), ?_, ?_⟩
  · intro phi theta psi s h
    simp only [val_of_spec h]
  intro Ang n R hV v h r hr
  rw [returns_eq hV h r hr]
  apply List.ext_getElem (by simp [resultRows])
  intro i h1 h2
  simp [resultRows]

/-- The sample number of row `i` of rank `r` is the number of rows on lower ranks plus `i`. -/
theorem C04_time_is_global_index {e : Env F} {Ang : F → Prop} {n : Nat} {R : Nat → List (Row F)}
    (hV : Valid e Ang n R) {v : Nat → List (Row F)} (h : Returns n (job e n R) v) :
    ∀ r < n, ∀ i < (R r).length,
      ((v r)[i]?).map Row.time = some (Arith.ofInt (((samples r R).length + i : Nat) : Int)) := by
  intro r hr i hi
  rw [returns_eq hV h r hr, samples_length]
  simp [resultRows, hi, total]

theorem before_succ (R : Nat → List (Row F)) (r : Nat) : before R (r + 1) = before R r + (R r).length := by
  unfold before; rw [List.range_succ]; simp

/-- C04: read in rank order, the column is `0, 1, …, N-1`. -/
theorem C04_enumerates {e : Env F} {Ang : F → Prop} {n : Nat} {R : Nat → List (Row F)}
    (hV : Valid e Ang n R) {v : Nat → List (Row F)} (h : Returns n (job e n R) v) :
    (samples n v).map Row.time = (List.range (samples n R).length).map (fun k : Nat => Arith.ofInt (k : Int)) := by
  have hT : ∀ r < n, (v r).map Row.time = (List.range (R r).length).map (fun i => Arith.ofInt (((before R r + i : Nat)) : Int)) := by
    intro r hr
    rw [returns_eq hV h r hr]
    apply List.ext_getElem (by simp [resultRows])
    intro i h1 h2
    simp [resultRows]
  have key : ∀ m ≤ n, (samples m v).map Row.time = (List.range (before R m)).map (fun k : Nat => Arith.ofInt (k : Int)) := by
    intro m
    induction m with
    | zero => intro _; simp [samples, before]
    | succ m ih =>
      intro hm
      have e1 : samples (m + 1) v = samples m v ++ v m := by unfold samples; rw [List.range_succ]; simp
      have e2 : before R (m + 1) = before R m + (R m).length := by unfold before; rw [List.range_succ]; simp
      rw [e1, List.map_append, ih (by omega), hT m (by omega), e2, List.range_add, List.map_append, List.map_map]
      rfl
  rw [key n le_rfl, samples_length]; rfl

/-- The concatenated output is a function of the concatenated input. -/
theorem concat_result (e : Env F) (R : Nat → List (Row F)) : ∀ n,
    ((List.range n).map (fun r => resultRows e (before R r) (R r))).flatten = resultRows e 0 (samples n R) := by
  intro n
  induction n with
  | zero => rfl
  | succ n ih =>
    unfold samples at ih ⊢
    rw [List.range_succ, List.map_append, List.flatten_append, ih, List.map_append, List.flatten_append]
    have hl : (((List.range n).map R).flatten).length = before R n := samples_length n R
    unfold resultRows
    rw [List.mapIdx_append, hl]
    simp only [List.map_cons, List.map_nil, List.flatten_cons, List.flatten_nil, List.append_nil, zero_add]
    congr 1
    apply List.ext_getElem (by simp)
    intro i h1 h2
    simp only [List.getElem_mapIdx, Row.mk.injEq, true_and]
    congr 1
    push_cast
    omega

theorem samples_result {e : Env F} {Ang : F → Prop} {n : Nat} {R : Nat → List (Row F)} (hV : Valid e Ang n R)
    {v : Nat → List (Row F)} (h : Returns n (job e n R) v) : samples n v = resultRows e 0 (samples n R) := by
  rw [← concat_result e R n]
  unfold samples
  congr 1
  apply List.map_congr_left
  intro r hr
  exact returns_eq hV h r (List.mem_range.mp hr)

/-- C02: same samples in the same order, any two decompositions: the same output, bit for bit. -/
theorem C02_decomposition_independent {e : Env F} {Ang : F → Prop} {n n' : Nat} {R R' : Nat → List (Row F)}
    (hV : Valid e Ang n R) (hV' : Valid e Ang n' R') (hsame : samples n R = samples n' R')
    {v v' : Nat → List (Row F)} (h : Returns n (job e n R) v) (h' : Returns n' (job e n' R') v') :
    samples n v = samples n' v' := by
  rw [samples_result hV h, samples_result hV' h', hsame]

/-- C03, permutations: if the samples of two jobs are the same up to order, so are the samples with
their signals. -/
theorem C03_permutation {e : Env F} {Ang : F → Prop} {n n' : Nat} {R R' : Nat → List (Row F)}
    (hV : Valid e Ang n R) (hV' : Valid e Ang n' R')
    (hperm : ((samples n R).map (fun y => (y.phi, y.theta, y.psi))).Perm
      ((samples n' R').map (fun y => (y.phi, y.theta, y.psi))))
    {v v' : Nat → List (Row F)} (h : Returns n (job e n R) v) (h' : Returns n' (job e n' R') v') :
    ((samples n v).map (fun y => (y.phi, y.theta, y.psi, y.sig))).Perm
      ((samples n' v').map (fun y => (y.phi, y.theta, y.psi, y.sig))) := by
  have key : ∀ rows : List (Row F), (resultRows e 0 rows).map (fun y => (y.phi, y.theta, y.psi, y.sig)) =
      (rows.map (fun y => (y.phi, y.theta, y.psi))).map
        (fun p => (p.1, p.2.1, p.2.2, calibSpec e (val e p.1 p.2.1 p.2.2))) := by
    intro rows
    apply List.ext_getElem (by simp [resultRows])
    intro i h1 h2
    simp [resultRows]
  rw [samples_result hV h, samples_result hV' h', key, key]
  exact hperm.map _

/-- C15: neither the order in which OpenMP executes the sample loop nor the outcome of the unstable
sorts has an influence on the result. -/
theorem C15_schedule_independent {e : Env F} {Ang : F → Prop} {n : Nat} {R : Nat → List (Row F)}
    (sched' : List Nat → List Nat) (srt' : List (F × Nat) → List (F × Nat))
    (hV : Valid e Ang n R) (hV' : Valid { e with sched := sched', srt := srt' } Ang n R)
    {v v' : Nat → List (Row F)} (h : Returns n (job e n R) v)
    (h' : Returns n (job { e with sched := sched', srt := srt' } n R) v') : ∀ r < n, v r = v' r := by
  intro r hr
  rw [returns_eq hV h r hr, returns_eq hV' h' r hr]
  rfl

/-- C21: with calibration and an un-normalised beam every signal is multiplied by `2/(1+eps)`;
otherwise nothing changes. -/
theorem C21_calibration {e : Env F} {Ang : F → Prop} {n : Nat} {R : Nat → List (Row F)}
    (hV : Valid e Ang n R) (hoff : e.calibrate = false)
    {v v' : Nat → List (Row F)} (h : Returns n (job e n R) v)
    (h' : Returns n (job { e with calibrate := true } n R) v') : ∀ r < n,
      v' r = if e.normalized then v r else
        (v r).map (fun y => { y with
          sig := Arith.mul y.sig (Arith.div (Arith.ofInt 2) (Arith.add (Arith.ofInt 1) e.eps)) }) := by
  intro r hr
  have hV' : Valid { e with calibrate := true } Ang n R :=
    ⟨hV.ranks, { hV.laws with }, hV.tags, hV.ang, hV.defined⟩
  rw [returns_eq hV h r hr, returns_eq hV' h' r hr]
  cases hn : e.normalized
  · rw [if_neg (by simp)]
    apply List.ext_getElem (by simp [resultRows])
    intro i h1 h2
    simp [resultRows, calibSpec, hn, hoff]
    rfl
  · rw [if_pos rfl]
    apply List.ext_getElem (by simp [resultRows])
    intro i h1 h2
    simp [resultRows, calibSpec, hn, hoff]
    rfl

/-! ## termination, deadlock, errors -/

/-- What the redistribution of a job looks like: legal colatitudes, histogram and boundary table
without out-of-bounds access. -/
structure Distributed (e : Env F) (n : Nat) (R : Nat → List (Row F)) (bounds : List F) : Prop where
  legal : ∀ r < n, ∀ y ∈ R r, Arith.lt y.theta (Arith.ofInt 0) = false ∧ Arith.lt Arith.pi y.theta = false
  table : ∃ H : Nat → List Int, (∀ r < n, localHits e.nbin (R r) = ok (H r)) ∧
    boundTable e.nbin n (sumCols ((List.range n).map H) e.nbin) (samples n R).length = ok bounds

/-- C06, positive part: if every rank has or receives at least one sample, all ranks return. -/
theorem C06_terminates_if_all_active_partial {e : Env F} {Ang : F → Prop} {n : Nat} {R : Nat → List (Row F)}
    (hV : Valid e Ang n R) {bounds : List F} (hD : Distributed e n R bounds)
    (hact : ∀ r < n, R r ≠ [] ∨ ∃ s < n, bucket n bounds 0 (R s) r ≠ []) :
    ∃ v, Returns n (job e n R) v := by
  have hT : TagLaw F (total R n) := by rw [← samples_length]; exact hV.tags
  obtain ⟨H, hH, hB⟩ := hD.table
  rw [samples_length] at hB
  exact ⟨_, (convolve_exec hV.laws hV.ranks R hT hV.ang hD.legal hV.defined H bounds hH hB (Or.inl hact)).finish hV.ranks⟩

/-- C06 with the simple condition: every rank has at least one sample. -/
theorem C06_terminates_if_nonempty_partial {e : Env F} {Ang : F → Prop} {n : Nat} {R : Nat → List (Row F)}
    (hV : Valid e Ang n R) {bounds : List F} (hD : Distributed e n R bounds) (hne : ∀ r < n, R r ≠ []) :
    ∃ v, Returns n (job e n R) v :=
  C06_terminates_if_all_active_partial hV hD (fun r hr => Or.inl (hne r hr))

/-- C06, negative part (finding): exactly the jobs in which one rank has or receives samples while another
neither has nor receives any block forever. -/
theorem C06_deadlock_iff {e : Env F} {Ang : F → Prop} {n : Nat} {R : Nat → List (Row F)}
    (hV : Valid e Ang n R) {bounds : List F} (hD : Distributed e n R bounds) :
    runAll n (job e n R) = .stuck ↔
      (∃ r < n, R r ≠ []) ∧ ∃ s < n, R s = [] ∧ ∀ t < n, bucket n bounds 0 (R t) s = [] := by
  have hT : TagLaw F (total R n) := by rw [← samples_length]; exact hV.tags
  obtain ⟨H, hH, hB⟩ := hD.table
  rw [samples_length] at hB
  obtain ⟨tag, htag⟩ := tagOf_exists (F := F) hT
  constructor
  · intro hst
    by_contra hc
    have hp : (∀ r < n, active n bounds R r) ∨ ∀ r < n, R r = [] := by
      by_cases h1 : ∃ r < n, R r ≠ []
      · left
        intro s hs
        unfold active
        by_contra h2
        push Not at h2
        exact hc ⟨h1, s, hs, h2.1, h2.2⟩
      · right; push Not at h1; exact h1
    have := (convolve_exec hV.laws hV.ranks R hT hV.ang hD.legal hV.defined H bounds hH hB hp).finish hV.ranks
    unfold job at hst
    rw [this] at hst
    cases hst
  · rintro ⟨⟨r, hr, hr'⟩, s, hs, hs1, hs2⟩
    have hp := prepare_exec e hV.ranks R htag hD.legal H bounds hH hB
    unfold job convolve
    rw [(hp _ _ |>.runAll_eq hV.ranks)]
    refine (exchange_stuck e R tag hr hs (Or.inl hr') ?_).1
    rintro (h | ⟨t, ht, h⟩)
    · exact h hs1
    · exact h (hs2 t ht)

/-- A rank with an illegal colatitude throws, and the job does not return. -/
theorem throws_of_illegal (e : Env F) {n : Nat} (hn : 1 ≤ n) (R : Nat → List (Row F)) {r : Nat} (hr : r < n)
    (hbad : ∃ y ∈ R r, Arith.lt y.theta (Arith.ofInt 0) = true ∨ Arith.lt Arith.pi y.theta = true) :
    Throws n (job e n R) r ∧ ∀ v, ¬ Returns n (job e n R) v := by
  obtain ⟨f, hsteps, hf⟩ := job_check e hn R
  have hb : checkTheta (setTime (before R r) (R r)) = throw "convolver::convolve: Illegal theta" := by
    apply checkTheta_throw
    by_contra hc
    push Not at hc
    have := (setTime_range (off := before R r) (rows := R r) (fun t => ¬ (Arith.lt t (Arith.ofInt 0) = true) ∧
      ¬ (Arith.lt Arith.pi t = true))).mp (fun y hy => by simpa using hc y hy)
    obtain ⟨y, hy, h⟩ := hbad
    have h2 := this y hy
    rcases h with h | h
    · exact h2.1 h
    · exact h2.2 h
  have ht : Throws n (job e n R) r := ⟨_, hsteps, "convolver::convolve: Illegal theta", by simp only [hb]; rfl⟩
  exact ⟨ht, fun v => ht.not_returns hr v⟩

/-- C05: a normal return means that all colatitudes of all ranks passed the check. -/
theorem C05_return_legal_partial {e : Env F} {Ang : F → Prop} {n : Nat} {R : Nat → List (Row F)}
    (hV : Valid e Ang n R) {v : Nat → List (Row F)} (h : Returns n (job e n R) v) :
    ∀ r < n, ∀ y ∈ R r, Arith.lt y.theta (Arith.ofInt 0) = false ∧ Arith.lt Arith.pi y.theta = false :=
  (job_returns_inv e hV.ranks R (by rw [← samples_length]; exact hV.tags) h).1

/-- The bin number of a colatitude is not an integer, or not one of the bins. -/
def BadBin (nbin : Nat) (theta : F) : Prop :=
  ∀ i, Arith.trunc (Arith.div (foldGt theta) (wbin nbin)) = some i → i < 0 ∨ (nbin : Int) ≤ i

theorem localHits_ub {nbin : Nat} {rows : List (Row F)} (h : ∃ y ∈ rows, BadBin nbin y.theta) :
    ∃ w, localHits nbin rows = ub w := by
  have key : ∀ (rs : List (Row F)) (h0 : List Int), h0.length = nbin → (∃ y ∈ rs, BadBin nbin y.theta) →
      ∃ w, foldRes (histStep nbin) h0 rs = ub w := by
    intro rs
    induction rs with
    | nil => rintro h0 _ ⟨y, hy, _⟩; simp at hy
    | cons r rs ih =>
      intro h0 hl hex
      rw [foldRes_cons]
      unfold histStep toInt
      cases ht : Arith.trunc (Arith.div (foldGt r.theta) (wbin nbin)) with
      | none => exact ⟨_, rfl⟩
      | some i =>
        simp only [ok_bind]
        by_cases hi : 0 ≤ i ∧ i.toNat < h0.length
        · rw [rd_ok hi.1 hi.2, ok_bind, wr_ok _ hi.1 hi.2]
          refine ih _ (by simpa using hl) ?_
          obtain ⟨y, hy, hb⟩ := hex
          rcases List.mem_cons.mp hy with rfl | hy
          · rcases hb i ht with h | h <;> omega
          · exact ⟨y, hy, hb⟩
        · rw [rd_ub (by omega)]
          exact ⟨_, rfl⟩
  exact key rows _ (by simp) h

/-- State of the job when the histogram is filled. -/
theorem job_hist (e : Env F) {n : Nat} (hn : 1 ≤ n) (R : Nat → List (Row F))
    (hlegal : ∀ s < n, ∀ y ∈ R s, Arith.lt y.theta (Arith.ofInt 0) = false ∧ Arith.lt Arith.pi y.theta = false) :
    ∃ g : Nat → List Int → Prog F (List (Row F)), Steps n (job e n R)
      (fun r => (Prog.lift (localHits e.nbin (R r)) : Prog F (List Int)) >>= g r) ∧
      ∃ k : Nat → List F → Prog F (List (Row F)),
        g = fun r mine => allSumArr mine >>= fun hits =>
          (Prog.lift (boundTable e.nbin n hits (samples n R).length) : Prog F (List F)) >>= k r := by
  obtain ⟨f, hsteps, hf⟩ := job_check e hn R
  have hchk : ∀ s < n, checkTheta (setTime (before R s) (R s)) = ok () := fun s hs => checkTheta_ok
    ((setTime_range (fun t => Arith.lt t (Arith.ofInt 0) = false ∧ Arith.lt Arith.pi t = false)).mpr (hlegal s hs))
  have h2 := hsteps.trans (Exec.local hn hchk _ f)
  have h3 := h2.trans (.refl (fun s _ => (hf s).2))
  unfold distribute at h3
  simp only [Prog.bind_assoc] at h3
  have h4 := h3.trans ((allSum_exec hn (fun r => ((setTime (before R r) (R r)).length : Int))) _ _)
  have hc : ∀ r, localHits e.nbin (setTime (before R r) (R r)) = localHits e.nbin (R r) := fun r =>
    localHits_congr e.nbin _ (R r) (setTime_map Row.theta (fun _ _ => rfl) _ _)
  simp only [hc, sum_total, ← samples_length] at h4
  exact ⟨_, h4, _, rfl⟩

/-- C05 / C43 (finding): a colatitude that passes the check but has no bin – a NaN, or `pi/2` itself – is
not rejected; it runs into undefined behaviour (conversion of NaN, write behind the histogram). -/
theorem C05_unbinned_undefined (e : Env F) {n : Nat} (hn : 1 ≤ n) (R : Nat → List (Row F)) {r : Nat}
    (hlegal : ∀ s < n, ∀ y ∈ R s, Arith.lt y.theta (Arith.ofInt 0) = false ∧ Arith.lt Arith.pi y.theta = false)
    (hbad : ∃ y ∈ R r, BadBin e.nbin y.theta) :
    HasUB n (job e n R) r := by
  obtain ⟨g, hg, _⟩ := job_hist e hn R hlegal
  obtain ⟨w, hw⟩ := localHits_ub hbad
  exact ⟨_, hg, w, by simp only [hw]; rfl⟩

/-- C43 (finding): if the evaluation of the boundary table reads behind the histogram, every rank executes
undefined behaviour. -/
theorem C43_table_undefined (e : Env F) {n : Nat} (hn : 1 ≤ n) (R : Nat → List (Row F))
    (hlegal : ∀ s < n, ∀ y ∈ R s, Arith.lt y.theta (Arith.ofInt 0) = false ∧ Arith.lt Arith.pi y.theta = false)
    {H : Nat → List Int} (hH : ∀ r < n, localHits e.nbin (R r) = ok (H r)) {w : String}
    (hB : boundTable (F := F) e.nbin n (sumCols ((List.range n).map H) e.nbin) (samples n R).length = ub w) :
    ∀ r, HasUB n (job e n R) r := by
  obtain ⟨g, hg, k, rfl⟩ := job_hist e hn R hlegal
  have h1 := hg.trans (Exec.local hn hH _ _)
  have h2 := h1.trans ((allSumArr_exec hn H e.nbin (fun r hr => localHits_length (hH r hr))) _ _)
  intro r
  exact ⟨_, h2, w, by simp only [hB]; rfl⟩

/-- C07 (finding): if one rank's pointing is illegal and another rank's is legal, the first throws and the
job blocks: the legal rank waits forever in the next collective. -/
theorem C07_error_on_one_rank_deadlocks (e : Env F) {n : Nat} (R : Nat → List (Row F)) {r s : Nat}
    (hr : r < n) (hs : s < n)
    (hbad : ∃ y ∈ R r, Arith.lt y.theta (Arith.ofInt 0) = true ∨ Arith.lt Arith.pi y.theta = true)
    (hgood : ∀ y ∈ R s, Arith.lt y.theta (Arith.ofInt 0) = false ∧ Arith.lt Arith.pi y.theta = false) :
    Throws n (job e n R) r ∧ runAll n (job e n R) = .stuck :=
  job_stuck_of_illegal e R hr hs hbad hgood

/-! ## the redistribution -/

theorem owners_spec {cores : Nat} {bounds : List F} (hb : bounds.length = cores) (ts : List F) : ∀ c < cores,
    ∀ i (h : i < ts.length), ownerStep cores bounds (if i = 0 then c else (owners cores bounds c ts).getD (i - 1) 0) ts[i] =
      ok ((owners cores bounds c ts).getD i 0) := by
  induction ts with
  | nil => intro c _ i h; simp at h
  | cons t ts ih =>
    intro c hc i h
    cases i with
    | zero => simpa [owners] using ownerStep_eq hb hc t
    | succ i =>
      have := ih _ (own_lt hb hc t) i (by simpa using h)
      cases i with
      | zero => simpa [owners] using this
      | succ i => simpa [owners] using this

/-- C08: for every boundary table (monotone or not) and every list of legal rows the counting pass and the
packing pass agree: no access is out of bounds, the counts are five times the numbers of rows packed
for the destinations, the segments are consecutive and cover the buffer, every row is packed once, and the segment of a destination
holds, in their order, exactly the rows for which the search (started at the destination of the row before) found that destination. -/
theorem C08_counts_match_packing {cores : Nat} (hc : 1 ≤ cores) {bounds : List F} (hb : bounds.length = cores)
    (rows : List (Row F))
    (hok : ∀ r ∈ rows, Arith.lt r.theta (Arith.ofInt 0) = false ∧ Arith.lt Arith.pi r.theta = false) :
    ∃ (counts : List Nat) (packed : List (Row F)) (segs : List (List (Row F))),
      fillingBetaSeg cores bounds rows = ok counts ∧
      todRedistribution cores bounds counts rows = ok packed ∧
      segs.length = cores ∧ packed = segs.flatten ∧ counts = segs.map (fun s => 5 * s.length) ∧
      segOffset cores counts = (List.range cores).map (fun d => 5 * (segs.take d).flatten.length) ∧
      segSize cores counts = 5 * packed.length ∧ packed.Perm rows ∧
      ∃ dest : List Nat, dest.length = rows.length ∧
        (∀ i (h : i < rows.length), ownerStep cores bounds (if i = 0 then 0 else dest.getD (i - 1) 0) rows[i].theta = ok (dest.getD i 0)) ∧
        ∀ d < cores, segs[d]? = some (((rows.zip dest).filter (fun p => p.2 == d)).map Prod.fst) := by
  refine ⟨_, _, buckets cores bounds rows, fillingBetaSeg_eq hb (by omega) rows,
    todRedistribution_eq hb (by omega) rows hok, by simp [buckets], rfl, ?_, ?_, ?_, buckets_perm hb (by omega) rows,
    owners cores bounds 0 (rows.map Row.theta), by simp, ?_, ?_⟩
  · simp [buckets]
  · rw [segOffset_eq]
    apply List.map_congr_left
    intro d _
    have := take_map_length cores bounds rows d
    simp only [buckets, ← List.map_take, List.length_flatten, List.map_map]
    generalize (List.range cores).take d = l
    induction l with
    | nil => rfl
    | cons a l ih => simp only [List.map_cons, List.sum_cons, Function.comp_apply]; omega
  · rw [segSize_eq (by omega) _ (by simp)]
    simp only [buckets, List.length_flatten, List.map_map]
    generalize List.range cores = l
    induction l with
    | nil => rfl
    | cons a l ih => simp only [List.map_cons, List.sum_cons, Function.comp_apply]; omega

  · intro i h
    have := owners_spec hb (rows.map Row.theta) 0 (by omega) i (by simpa using h)
    simpa using this
  · intro d hd
    simp [buckets, bucket, hd]

/-- C37: the sort reorders whole rows into non-decreasing key order. -/
theorem C37_sort_permutes_rows {srt : List (F × Nat) → List (F × Nat)} (rows : List (Row F))
    (hsort : ∀ l : List (F × Nat), (∀ p ∈ l, ∃ r ∈ rows, p.1 = r.theta) →
      (srt l).Perm l ∧ (srt l).Pairwise (fun p q => Arith.lt q.1 p.1 = false)) :
    ∃ ys, hpsortTheta srt rows = ok ys ∧ ys.Perm rows ∧
      ys.Pairwise (fun p q => Arith.lt q.theta p.theta = false) := by
  have h := hsort (rows.zipIdx.map (fun p => (p.1.theta, p.2))) (by
    intro p hp
    obtain ⟨q, hq, rfl⟩ := List.mem_map.mp hp
    exact ⟨q.1, (List.mem_zipIdx' hq).2 ▸ List.getElem_mem _, rfl⟩)
  exact hpsortTheta_ok rows h.1 h.2

end Verif.Tod
