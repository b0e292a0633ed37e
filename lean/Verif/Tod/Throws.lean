import Verif.Tod.Witness

/-!
# C05, C07: exactly which ranks throw, and what the caller's buffer holds then
-/

namespace Verif.Tod
open Verif Res Spmd

variable {F : Type} [Arith F]

/-! ## steps are deterministic -/

theorem Throws.of_steps {β : Type} {n : Nat} {P P' : Nat → Prog F β} {r : Nat} (hr : r < n)
    (hs : Steps n P P') (h : Throws n P r) : Throws n P' r := by
  induction hs with
  | refl h0 =>
    obtain ⟨Q, hQ, m, hm⟩ := h
    exact ⟨Q, hQ.congr_left h0, m, hm⟩
  | step c k a hP hc h' ih =>
    apply ih
    obtain ⟨Q, hQ, m, hm⟩ := h
    cases hQ with
    | refl h0 =>
      rw [← h0 r hr, hP r hr] at hm
      cases hm
    | step c' k' a' hP' hc' h'' =>
      have e1 : ∀ q < n, c q = c' q ∧ k q = k' q := by
        intro q hq
        have := (hP q hq).symm.trans (hP' q hq)
        injection this with h1 h2
        exact ⟨h1, h2⟩
      have e2 : (List.range n).map c = (List.range n).map c' :=
        List.map_congr_left (fun q hq => (e1 q (List.mem_range.mp hq)).1)
      rw [← e2, hc] at hc'
      injection hc' with hc'
      have e3 : ∀ q < n, a q = a' q := fun q hq => List.map_inj_left.mp hc' q (List.mem_range.mpr hq)
      refine ⟨Q, h''.congr_left (fun q hq => ?_), m, hm⟩
      rw [(e1 q hq).2, e3 q hq]

theorem Throws.of_blocked {β : Type} {n : Nat} {P : Nat → Prog F β} {r : Nat} (hr : r < n)
    (hb : Blocked n P) (h : Throws n P r) : ∃ m, P r = .done (.throw m) := by
  obtain ⟨Q, hQ, m, hm⟩ := h
  exact ⟨m, by rw [← hb.steps hQ r hr]; exact hm⟩

theorem blocked_of_done {β : Type} {n : Nat} {P : Nat → Prog F β} {s : Nat} (hs : s < n) {x : Res β}
    (h : P s = .done x) : Blocked n P := by
  intro c k hc
  have := hc s hs
  rw [h] at this
  cases this

/-- Local code that cannot throw: the step that follows is only reached if it succeeds everywhere. -/
theorem Throws.local {β γ : Type} {n : Nat} {x : Nat → Res β} {f : Nat → β → Prog F γ} {r : Nat} (hr : r < n)
    (hx : ∀ q m, x q ≠ throw m) (hf : ∀ q y m, f q y ≠ .done (.throw m)) (h : Throws n (fun q => (Prog.lift (x q) : Prog F β) >>= f q) r) :
    ∃ y : Nat → β, ∀ q < n, x q = ok (y q) := by
  have hall : ∀ q < n, ∃ y, x q = ok y := by
    intro q hq
    cases hxq : x q with
    | ok y => exact ⟨y, rfl⟩
    | throw m => exact absurd hxq (hx q m)
    | ub w =>
      exfalso
      have hb : Blocked n (fun q => (Prog.lift (x q) : Prog F β) >>= f q) :=
        blocked_of_done hq (x := .ub w) (by simp only [hxq]; rfl)
      -- rank r is itself at this point
      obtain ⟨m, hm⟩ := Throws.of_blocked hr hb h
      cases hxr : x r with
      | ub w' => simp only [hxr] at hm; injection hm with hm; cases hm
      | throw m' => exact hx r m' hxr
      | ok y =>
        simp only [hxr] at hm
        exact hf r y m hm
  have hne : Nonempty β := by
    obtain ⟨y, _⟩ := hall r hr
    exact ⟨y⟩
  choose! y hy using hall
  exact ⟨y, hy⟩

theorem localHits_nothrow (nbin : Nat) (rows : List (Row F)) (m : String) : localHits nbin rows ≠ throw m := by
  unfold localHits
  generalize List.replicate nbin (0 : Int) = h0
  induction rows generalizing h0 with
  | nil => intro h; cases h
  | cons r rows ih =>
    rw [foldRes_cons]
    have hst : ∀ m, histStep nbin h0 r ≠ throw m := by
      intro m
      unfold histStep toInt
      cases Arith.trunc (Arith.div (foldGt r.theta) (wbin nbin)) with
      | none => simp
      | some i =>
        simp only [ok_bind]
        cases hr : rd h0 i with
        | throw m => exact absurd hr (rd_nothrow _ _ _)
        | ub w => simp
        | ok h => simp only [ok_bind]; unfold wr; split <;> simp
    cases h : histStep nbin h0 r with
    | throw m' => exact absurd h (hst m')
    | ub w => intro h2; cases h2
    | ok h1 => exact ih h1

/-- C05: `convolve` throws on a rank if and only if a colatitude of that rank is below 0 or above pi. -/
theorem C05_check_iff_partial {e : Env F} {Ang : F → Prop} {n : Nat} {R : Nat → List (Row F)}
    (hL : Laws e Ang) (hT : TagLaw F (samples n R).length) {r : Nat} (hr : r < n)
    (hA : ∀ r < n, ∀ y ∈ R r, Arith.lt y.theta (Arith.ofInt 0) = false → Arith.lt Arith.pi y.theta = false →
      Ang y.theta ∧ ∃ v, sampleSpec e y.phi y.theta y.psi = ok v) :
    Throws n (job e n R) r ↔
      ∃ y ∈ R r, Arith.lt y.theta (Arith.ofInt 0) = true ∨ Arith.lt Arith.pi y.theta = true := by
  have hn : 1 ≤ n := by omega
  refine ⟨?_, fun h => (throws_of_illegal e hn R hr h).1⟩
  intro ht
  by_contra hgood
  push Not at hgood
  simp only [ne_eq, Bool.not_eq_true] at hgood
  obtain ⟨f, hsteps, hf⟩ := job_check e hn R
  by_cases hall : ∀ s < n, ∀ y ∈ R s, Arith.lt y.theta (Arith.ofInt 0) = false ∧ Arith.lt Arith.pi y.theta = false
  · have hT' : TagLaw F (total R n) := by rw [← samples_length]; exact hT
    obtain ⟨tag, htag⟩ := tagOf_exists (F := F) hT'
    obtain ⟨g, hg, k, rfl⟩ := job_hist e hn R hall
    have ht1 := Throws.of_steps hr hg ht
    obtain ⟨H, hH⟩ := Throws.local hr (fun q m => localHits_nothrow _ _ m) (fun q y m h => by cases h) ht1
    have ht2 := Throws.of_steps hr ((Exec.local hn hH _ _).trans
      ((allSumArr_exec hn H e.nbin (fun r hr => localHits_length (hH r hr))) _ _)) ht1
    have hB : ∃ bounds, boundTable (F := F) e.nbin n (sumCols ((List.range n).map H) e.nbin) (samples n R).length = ok bounds := by
      cases hb : boundTable (F := F) e.nbin n (sumCols ((List.range n).map H) e.nbin) (samples n R).length with
      | ok b => exact ⟨b, rfl⟩
      | throw m => exact absurd hb (boundTable_nothrow _ _ _ _ _)
      | ub w =>
        exfalso
        obtain ⟨m, hm⟩ := Throws.of_blocked hr (blocked_of_done (s := r) hr (x := .ub w) (by simp only [hb]; rfl)) ht2
        simp only [hb] at hm
        injection hm with hm; cases hm
    obtain ⟨bounds, hB⟩ := hB
    rw [samples_length] at hB
    have hp := prepare_exec e hn R htag hall H bounds hH hB
    by_cases hpart : (∀ r < n, active n bounds R r) ∨ ∀ r < n, R r = []
    · have hx := convolve_exec hL hn R hT' (fun s hs y hy => (hA s hs y hy (hall s hs y hy).1 (hall s hs y hy).2).1) hall
        (fun s hs y hy => (hA s hs y hy (hall s hs y hy).1 (hall s hs y hy).2).2) H bounds hH hB hpart
      have hret : Returns n (job e n R) (fun r => resultRows e (before R r) (R r)) := hx.finish hn
      exact ht.not_returns hr _ hret
    · rw [not_or] at hpart
      obtain ⟨hc1, hc2⟩ := hpart
      push Not at hc1 hc2
      obtain ⟨s, hs, hs'⟩ := hc1
      obtain ⟨q, hq, hq'⟩ := hc2
      obtain ⟨_, K, hK, hbl, hnt⟩ := exchange_stuck e R tag hq hs (Or.inl hq') hs'
      have h3 := Throws.of_steps hr ((hp _ _).trans hK) (P := fun r => prepare e n (R r) >>= _) ht
      obtain ⟨m, hm⟩ := Throws.of_blocked hr hbl h3
      exact hnt r hr _ hm
  · push Not at hall
    obtain ⟨s, hs, y, hy, hbad⟩ := hall
    have hb : checkTheta (setTime (before R s) (R s)) = Res.throw "convolver::convolve: Illegal theta" := by
      apply checkTheta_throw
      by_contra hc
      push Not at hc
      have := (setTime_range (off := before R s) (rows := R s) (fun t => ¬ (Arith.lt t (Arith.ofInt 0) = true) ∧
        ¬ (Arith.lt Arith.pi t = true))).mp (fun y hy => by simpa using hc y hy) y hy
      exact hbad (by simpa using this.1) (by simpa using this.2)
    have hg : checkTheta (setTime (before R r) (R r)) = ok () := checkTheta_ok
      ((setTime_range (fun t => Arith.lt t (Arith.ofInt 0) = false ∧ Arith.lt Arith.pi t = false)).mpr hgood)
    have h3 := Throws.of_steps hr hsteps ht
    obtain ⟨m, hm⟩ := Throws.of_blocked hr (blocked_of_done hs (x := .throw "convolver::convolve: Illegal theta")
      (by simp only [hb]; rfl)) h3
    simp only [hg] at hm
    obtain ⟨⟨k, x, hk⟩, _⟩ := hf r
    have : (f r () : Prog F (List (Row F))) = .done (.throw m) := hm
    rw [hk] at this
    cases this

/-! ## the caller's buffer after an exception -/

/-- `convolver::convolve` as the caller sees it: the buffer and, if the range check throws, the exception
(src/conviqt_math.cpp:1479-1672; the time column is written at :1502-1504 before the check at :1508-1514). -/
def convolveObs (e : Env F) (cores me : Nat) (rows0 : List (Row F)) : Prog F (List (Row F) × Option String) := do
  barrier
  let s ← scanSum rows0.length
  let rows1 := setTime (s - rows0.length) rows0
  match checkTheta rows1 with
  | .throw m => Prog.lift (ok (rows1, some m))
  | .ub w => Prog.lift (ub w)
  | .ok () =>
    let bounds ← distribute e.nbin cores rows1
    let inSeg ← Prog.lift (fillingBetaSeg cores bounds rows1)
    barrier
    let outSeg ← all2all inSeg
    let packed ← Prog.lift (todRedistribution cores bounds inSeg (tagSig rows1))
    let order ← Prog.lift (packed.mapM readTag)
    let rows ← exchange e cores me rows0.length ⟨inSeg, outSeg, packed, order⟩
    Prog.lift (ok (rows, none))

/-- The exception is passed on to the caller. -/
def rethrow : List (Row F) × Option String → Prog F (List (Row F))
  | (rows, none) => Prog.lift (ok rows)
  | (_, some m) => Prog.lift (throw m)

theorem convolve_obs (e : Env F) (cores me : Nat) (rows0 : List (Row F)) :
    convolve e cores me rows0 = (convolveObs e cores me rows0 >>= rethrow) := by
  have hid : ∀ p : Prog F (List (Row F)), p = (p >>= fun rows => rethrow (rows, none)) := by
    intro p
    induction p with
    | done x => cases x <;> rfl
    | call c k ih => simp only [Prog.call_bind]; congr 1; funext a; exact ih a
  unfold convolve prepare convolveObs
  simp only [Prog.bind_assoc]
  congr 1; funext _
  congr 1; funext s
  cases checkTheta (setTime (s - rows0.length) rows0) with
  | throw m => rfl
  | ub w => rfl
  | ok u =>
    simp only [Prog.lift_ok_bind, Prog.bind_assoc]
    congr 1; funext b
    congr 1; funext i
    congr 1; funext _
    congr 1; funext o
    congr 1; funext p
    congr 1; funext q
    exact hid _

/-- C05: when `convolve` throws on a rank, the rows of this rank are all still there and only the time
column has been written (with the global sample number). -/
theorem C05_rows_intact_partial (e : Env F) {n : Nat} (R : Nat → List (Row F)) {r : Nat} (hr : r < n)
    (hbad : ∃ y ∈ R r, Arith.lt y.theta (Arith.ofInt 0) = true ∨ Arith.lt Arith.pi y.theta = true) :
    ∃ Q, Steps n (fun r => convolveObs e n r (R r)) Q ∧
      ∃ rows, Q r = .done (ok (rows, some "convolver::convolve: Illegal theta")) ∧
        rows.map (fun y => (y.phi, y.theta, y.psi, y.sig)) = (R r).map (fun y => (y.phi, y.theta, y.psi, y.sig)) ∧
        ∀ i < (R r).length, (rows[i]?).map Row.time = some (Arith.ofInt (((samples r R).length + i : Nat) : Int)) := by
  have hn : 1 ≤ n := by omega
  have hb : checkTheta (setTime (before R r) (R r)) = throw "convolver::convolve: Illegal theta" := by
    apply checkTheta_throw
    by_contra hc
    push Not at hc
    have := (setTime_range (off := before R r) (rows := R r) (fun t => ¬ (Arith.lt t (Arith.ofInt 0) = true) ∧
      ¬ (Arith.lt Arith.pi t = true))).mp (fun y hy => by simpa using hc y hy)
    obtain ⟨y, hy, h⟩ := hbad
    have h2 := this y hy
    rcases h with h | h
    · exact h2.1 h
    · exact h2.2 h
  refine ⟨_, ((barrier_exec hn) _ _).trans ((scanSum_exec hn (fun r => ((R r).length : Int))) _ _), 
    setTime (before R r) (R r), ?_, setTime_map _ (fun _ _ => rfl) _ _, ?_⟩
  · simp only [scan_before]
    rw [hb]
    rfl
  · intro i hi
    rw [samples_length]
    unfold setTime
    simp [hi, total]

/-- C07: if every rank has an illegal colatitude, all ranks end with the error. -/
theorem C07_error_on_all_ranks_partial (e : Env F) {n : Nat} (hn : 1 ≤ n) (R : Nat → List (Row F))
    (hbad : ∀ r < n, ∃ y ∈ R r, Arith.lt y.theta (Arith.ofInt 0) = true ∨ Arith.lt Arith.pi y.theta = true) :
    runAll n (job e n R) = .finished (List.replicate n (throw "convolver::convolve: Illegal theta")) := by
  obtain ⟨f, hsteps, hf⟩ := job_check e hn R
  rw [hsteps.runAll_eq hn, runAll_congr hn (Q := fun _ => .done (throw "convolver::convolve: Illegal theta")),
    runAll_done hn]
  · simp
  · intro r hr
    have hb : checkTheta (setTime (before R r) (R r)) = throw "convolver::convolve: Illegal theta" := by
      apply checkTheta_throw
      by_contra hc
      push Not at hc
      have := (setTime_range (off := before R r) (rows := R r) (fun t => ¬ (Arith.lt t (Arith.ofInt 0) = true) ∧
        ¬ (Arith.lt Arith.pi t = true))).mp (fun y hy => by simpa using hc y hy)
      obtain ⟨y, hy, h⟩ := hbad r hr
      have h2 := this y hy
      rcases h with h | h
      · exact h2.1 h
      · exact h2.2 h
    simp only [hb]
    rfl

/-- C07, complete characterisation: the job ends on all ranks after an illegal colatitude somewhere if and
only if every rank has one. -/
theorem C07_ends_iff (e : Env F) {n : Nat} (R : Nat → List (Row F)) {r : Nat} (hr : r < n)
    (hbad : ∃ y ∈ R r, Arith.lt y.theta (Arith.ofInt 0) = true ∨ Arith.lt Arith.pi y.theta = true) :
    runAll n (job e n R) ≠ .stuck ↔
      ∀ s < n, ∃ y ∈ R s, Arith.lt y.theta (Arith.ofInt 0) = true ∨ Arith.lt Arith.pi y.theta = true := by
  constructor
  · intro h s hs
    by_contra hc
    push Not at hc
    simp only [ne_eq, Bool.not_eq_true] at hc
    exact h (C07_error_on_one_rank_deadlocks e R hr hs hbad hc).2
  · intro h
    rw [C07_error_on_all_ranks_partial e (by omega) R h]
    simp

end Verif.Tod
