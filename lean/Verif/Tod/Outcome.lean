import Verif.Tod.Cuts

/-!
# C59: the outcome of every call of `convolve`, exactly (exact arithmetic)
-/

namespace Verif.Tod
open Verif Res RealArith Spmd

/-! ## Specification -/

/-- Distance of a colatitude from the nearer pole. -/
noncomputable def poleDist (t : ℝ) : ℝ := min t (Real.pi - t)

/-- Lower edge of the band of rank `k`: the pole for rank 0, one bin before cut `k` for the others. -/
noncomputable def edge (nbin : ℕ) (p : ℕ → ℕ) (k : ℕ) : ℝ := if k = 0 then 0 else ((p k : ℝ) - 1) * (Real.pi / 2 / nbin)

/-- The rank to which a sample at distance `f` from the pole is sent if the sample before it was sent to rank `c`: the last rank whose
band begins at or before `f`; a sample exactly on an edge goes to the rank before that edge if the sample before it was beyond. -/
noncomputable def dest (n : ℕ) (b : ℕ → ℝ) (c : ℕ) (f : ℝ) : ℕ :=
  if b c ≤ f then ((List.range n).filter (fun k => decide (k ≠ 0 ∧ b k ≤ f))).length
  else ((List.range n).filter (fun k => decide (k ≠ 0 ∧ b k < f))).length

/-- The ranks to which consecutive samples are sent. -/
noncomputable def dests (n : ℕ) (b : ℕ → ℝ) : ℕ → List ℝ → List ℕ
  | _, [] => []
  | c, t :: ts => dest n b c (poleDist t) :: dests n b (dest n b c (poleDist t)) ts

/-- Rank `s` has no sample and is sent none. -/
def Idle (nbin n : ℕ) (R : ℕ → List (Row ℝ)) (p : ℕ → ℕ) (s : ℕ) : Prop :=
  R s = [] ∧ ∀ t < n, s ∉ dests n (edge nbin p) 0 ((R t).map Row.theta)

/-- The colatitudes of a rank are legal. -/
def LegalAt (rows : List (Row ℝ)) : Prop := ∀ y ∈ rows, 0 ≤ y.theta ∧ y.theta ≤ Real.pi

/-- The job hangs: it does not end, although no rank executes undefined behaviour. -/
def Hangs {β : Type} (n : ℕ) (P : ℕ → Prog ℝ β) : Prop := runAll n P = .stuck ∧ ∀ r < n, ¬ HasUB n P r

/-! ## steps are deterministic -/

theorem HasUB.of_steps {F β : Type} {n : Nat} {P P' : Nat → Prog F β} {r : Nat} (hr : r < n)
    (hs : Steps n P P') (h : HasUB n P r) : HasUB n P' r := by
  induction hs with
  | refl h0 =>
    obtain ⟨Q, hQ, m, hm⟩ := h
    exact ⟨Q, hQ.congr_left h0, m, hm⟩
  | step c k a hP hc h' ih =>
    apply ih
    obtain ⟨Q, hQ, m, hm⟩ := h
    cases hQ with
    | refl h0 =>
      rw [← h0 r hr, hP r hr] at hm
      cases hm
    | step c' k' a' hP' hc' h'' =>
      have e1 : ∀ q < n, c q = c' q ∧ k q = k' q := by
        intro q hq
        have := (hP q hq).symm.trans (hP' q hq)
        injection this with h1 h2
        exact ⟨h1, h2⟩
      have e2 : (List.range n).map c = (List.range n).map c' :=
        List.map_congr_left (fun q hq => (e1 q (List.mem_range.mp hq)).1)
      rw [← e2, hc] at hc'
      injection hc' with hc'
      have e3 : ∀ q < n, a q = a' q := fun q hq => List.map_inj_left.mp hc' q (List.mem_range.mpr hq)
      refine ⟨Q, h''.congr_left (fun q hq => ?_), m, hm⟩
      rw [(e1 q hq).2, e3 q hq]

theorem HasUB.of_blocked {F β : Type} [Arith F] {n : Nat} {P : Nat → Prog F β} {r : Nat} (hr : r < n)
    (hb : Blocked n P) (h : HasUB n P r) : ∃ m, P r = .done (.ub m) := by
  obtain ⟨Q, hQ, m, hm⟩ := h
  exact ⟨m, by rw [← hb.steps hQ r hr]; exact hm⟩

/-! ## where the samples go -/

theorem cutTable_eq {nbin n : ℕ} (hn : 1 ≤ n) (p : ℕ → ℕ) : cutTable nbin n p = (List.range n).map (edge nbin p) := by
  unfold cutTable
  obtain ⟨m, rfl⟩ : ∃ m, n = m + 1 := ⟨n - 1, by omega⟩
  rw [List.range_succ_eq_map, List.map_cons, List.map_map, Nat.add_sub_cancel]
  congr 1

/-- The number of `k` in `1..n-1` with a property that holds exactly up to `d`. -/
theorem count_upto {n d : ℕ} (hd : d < n) (P : ℕ → Prop) [DecidablePred P] (h : ∀ k < n, k ≠ 0 → (P k ↔ k ≤ d)) :
    ((List.range n).filter (fun k => decide (k ≠ 0 ∧ P k))).length = d := by
  have : (List.range n).filter (fun k => decide (k ≠ 0 ∧ P k)) = (List.range n).filter (fun k => decide (k ≠ 0 ∧ k ≤ d)) := by
    apply List.filter_congr
    intro k hk
    rw [List.mem_range] at hk
    simp only [decide_eq_decide]
    constructor
    · rintro ⟨a, b⟩; exact ⟨a, (h k hk a).mp b⟩
    · rintro ⟨a, b⟩; exact ⟨a, (h k hk a).mpr b⟩
  rw [this]
  clear this h
  induction n with
  | zero => omega
  | succ n ih =>
    rw [List.range_succ, List.filter_append, List.length_append]
    rcases Nat.lt_or_ge d n with h | h
    · rw [ih h, List.filter_cons_of_neg (by simp; omega)]; simp
    · obtain rfl : n = d := by omega
      clear ih
      have : (List.range n).filter (fun k => decide (k ≠ 0 ∧ k ≤ n)) = (List.range n).filter (fun k => decide (k ≠ 0)) := by
        apply List.filter_congr
        intro k hk
        rw [List.mem_range] at hk
        simp only [decide_eq_decide]
        omega
      rw [this]
      cases n with
      | zero => simp
      | succ m =>
        rw [List.range_succ_eq_map, List.filter_cons_of_neg (by simp), List.filter_eq_self.mpr (by simp)]
        simp

theorem searchUp_last {n : ℕ} {b : ℕ → ℝ} (hs : ∀ i j, i ≤ j → j < n → b i ≤ b j) {f : ℝ} :
    ∀ (k c : ℕ), k + c + 1 = n → b c ≤ f → ∃ d, searchUp ((List.range n).map b) f k c = ok d ∧ d < n ∧ ∀ j < n, (b j ≤ f ↔ j ≤ d) := by
  intro k
  induction k with
  | zero =>
    intro c hk hc
    refine ⟨c, rfl, by omega, fun j hj => ⟨fun _ => by omega, fun h => (hs j c h (by omega)).trans hc⟩⟩
  | succ k ih =>
    intro c hk hc
    rw [searchUp, rd_nat (by simp; omega)]
    simp only [ok_bind, List.getElem_map, List.getElem_range]
    split
    · rename_i h
      rw [lt_iff] at h
      refine ⟨c, rfl, by omega, fun j hj => ⟨fun hj' => ?_, fun h' => (hs j c h' (by omega)).trans hc⟩⟩
      by_contra hcon
      have := hs (c + 1) j (by omega) hj
      linarith
    · rename_i h
      rw [lt_iff, not_lt] at h
      exact ih (c + 1) (by omega) h

theorem searchDown_last {n : ℕ} {b : ℕ → ℝ} (hs : ∀ i j, i ≤ j → j < n → b i ≤ b j) {f : ℝ} :
    ∀ c < n, (∀ j < n, c < j → f ≤ b j) → ∃ d, searchDown ((List.range n).map b) f c = ok d ∧ d < n ∧ ∀ j < n, j ≠ 0 → (b j < f ↔ j ≤ d) := by
  intro c
  induction c with
  | zero =>
    intro hc h
    refine ⟨0, rfl, hc, fun j hj h0 => ⟨fun h' => ?_, fun h' => by omega⟩⟩
    have := h j hj (by omega)
    linarith
  | succ c ih =>
    intro hc h
    rw [searchDown, rd_nat (by simp; omega)]
    simp only [ok_bind, List.getElem_map, List.getElem_range]
    split
    · rename_i hl
      rw [lt_iff] at hl
      refine ⟨c + 1, rfl, hc, fun j hj h0 => ⟨fun h' => ?_, fun h' => lt_of_le_of_lt (hs j _ h' hc) hl⟩⟩
      by_contra hcon
      have := h j hj (by omega)
      linarith
    · rename_i hl
      rw [lt_iff, not_lt] at hl
      refine ih (by omega) (fun j hj hcj => ?_)
      exact hl.trans (hs (c + 1) j (by omega) hj)

theorem own_dest {n : ℕ} {b : ℕ → ℝ} (hs : ∀ i j, i ≤ j → j < n → b i ≤ b j) {c : ℕ} (hc : c < n) (t : ℝ) :
    own n ((List.range n).map b) c t = dest n b c (poleDist t) ∧ dest n b c (poleDist t) < n := by
  unfold own ownerStep dest
  rw [rd_nat (by simp; omega)]
  simp only [ok_bind, foldGe_min, List.getElem_map, List.getElem_range]
  change _ ∧ _
  have hmin : min t (Real.pi - t) = poleDist t := rfl
  rw [hmin]
  by_cases h : b c ≤ poleDist t
  · have h' : Arith.le (b c) (poleDist t) = true := by rw [le_iff]; exact h
    rw [if_pos h', if_pos h]
    obtain ⟨d, h1, h2, h3⟩ := searchUp_last hs (f := poleDist t) (n - 1 - c) c (by omega) h
    rw [h1, count_upto h2 (fun k => b k ≤ poleDist t) (fun k hk _ => h3 k hk)]
    exact ⟨rfl, h2⟩
  · have h' : ¬ Arith.le (b c) (poleDist t) = true := by rw [le_iff]; exact h
    rw [if_neg h', if_neg h]
    rw [not_le] at h
    obtain ⟨d, h1, h2, h3⟩ := searchDown_last hs (f := poleDist t) c hc (fun j hj hcj => h.le.trans (hs c j hcj.le hj))
    rw [h1, count_upto h2 (fun k => b k < poleDist t) (fun k hk h0 => h3 k hk h0)]
    exact ⟨rfl, h2⟩

theorem owners_dests {n : ℕ} {b : ℕ → ℝ} (hs : ∀ i j, i ≤ j → j < n → b i ≤ b j) (ts : List ℝ) :
    ∀ c < n, owners n ((List.range n).map b) c ts = dests n b c ts := by
  induction ts with
  | nil => intro c _; rfl
  | cons t ts ih =>
    intro c hc
    obtain ⟨h1, h2⟩ := own_dest hs hc t
    rw [owners, dests, h1, ih _ h2]

theorem bucket_nil_iff {n : ℕ} {b : ℕ → ℝ} (hs : ∀ i j, i ≤ j → j < n → b i ≤ b j) (hn : 0 < n) (rows : List (Row ℝ)) (d : ℕ) :
    bucket n ((List.range n).map b) 0 rows d = [] ↔ d ∉ dests n b 0 (rows.map Row.theta) := by
  unfold bucket
  rw [owners_dests hs _ 0 hn, List.map_eq_nil_iff, List.filter_eq_nil_iff]
  have hlen : (dests n b 0 (rows.map Row.theta)).length = rows.length := by
    rw [← owners_dests hs _ 0 hn]; simp
  constructor
  · intro h hd
    obtain ⟨i, hi, rfl⟩ := List.getElem_of_mem hd
    refine h (rows[i]'(by omega), (dests n b 0 (rows.map Row.theta))[i]) ?_ (by simp)
    rw [← List.getElem_zip (h := by simp [hlen]; omega)]
    exact List.getElem_mem _
  · rintro h ⟨y, k⟩ hk hkd
    simp only [beq_iff_eq] at hkd
    subst hkd
    exact h (List.of_mem_zip hk).2

theorem edge_mono {nbin n : ℕ} {R : ℕ → List (Row ℝ)} {p : ℕ → ℕ} (hp : Cuts nbin n R p) :
    ∀ i j, i ≤ j → j < n → edge nbin p i ≤ edge nbin p j := by
  have hw : (0 : ℝ) ≤ Real.pi / 2 / nbin := by have := Real.pi_pos; positivity
  have hlt : ∀ i j, i < j → j < n → p i < p j := by
    intro i j hij
    induction j with
    | zero => omega
    | succ j ih =>
      intro hj
      have := hp.later j (by omega)
      rcases Nat.lt_or_ge i j with h | h
      · have := ih h (by omega); omega
      · obtain rfl : i = j := by omega
        exact this
  intro i j hij hj
  rcases hij.lt_or_eq with h | rfl
  · have hpj := hlt i j h hj
    unfold edge
    rw [if_neg (show ¬ j = 0 by omega)]
    have h1 : (1 : ℝ) ≤ p j := by exact_mod_cast (by omega : 1 ≤ p j)
    split
    · exact mul_nonneg (by linarith) hw
    · have : (p i : ℝ) ≤ p j := by exact_mod_cast hpj.le
      exact mul_le_mul_of_nonneg_right (by linarith) hw
  · exact le_rfl

theorem active_iff_idle {nbin n : ℕ} {R : ℕ → List (Row ℝ)} {p : ℕ → ℕ} (hn : 1 ≤ n) (hp : Cuts nbin n R p) (s : ℕ) :
    active n (cutTable nbin n p) R s ↔ ¬ Idle nbin n R p s := by
  unfold active Idle
  rw [cutTable_eq hn]
  simp only [ne_eq, bucket_nil_iff (edge_mono hp) (show 0 < n by omega)]
  constructor
  · rintro (h | ⟨t, ht, h⟩) ⟨h1, h2⟩
    · exact h h1
    · exact h (h2 t ht)
  · intro h
    by_cases h1 : R s = []
    · right
      by_contra hc
      push Not at hc
      exact h ⟨h1, hc⟩
    · exact Or.inl h1

/-! ## the outcome -/

variable {e : Env ℝ} {n : ℕ} {R : ℕ → List (Row ℝ)}

theorem legal_iff (rows : List (Row ℝ)) : LegalAt rows ↔
    ∀ y ∈ rows, Arith.lt y.theta (Arith.ofInt 0) = false ∧ Arith.lt Arith.pi y.theta = false := by
  unfold LegalAt
  simp only [lt_false]
  simp

theorem not_legal_iff (rows : List (Row ℝ)) : ¬ LegalAt rows ↔
    ∃ y ∈ rows, Arith.lt y.theta (Arith.ofInt 0) = true ∨ Arith.lt Arith.pi y.theta = true := by
  rw [legal_iff]
  push Not
  simp only [ne_eq, Bool.not_eq_false]
  constructor
  · rintro ⟨y, hy, h⟩
    refine ⟨y, hy, ?_⟩
    cases h0 : Arith.lt y.theta (Arith.ofInt 0)
    · exact Or.inr (h h0)
    · exact Or.inl rfl
  · rintro ⟨y, hy, h⟩
    refine ⟨y, hy, fun h0 => ?_⟩
    rcases h with h | h
    · rw [h0] at h; cases h
    · exact h

/-- Rejected everywhere. -/
theorem outcome_throw (hn : 1 ≤ n) (h : ∀ r < n, ¬ LegalAt (R r)) :
    runAll n (job e n R) = .finished (List.replicate n (throw "convolver::convolve: Illegal theta")) :=
  C07_error_on_all_ranks_partial e hn R (fun r hr => (not_legal_iff _).mp (h r hr))

/-- Rejected on some ranks only. -/
theorem outcome_mixed {r s : ℕ} (hr : r < n) (hs : s < n) (hbad : ¬ LegalAt (R r)) (hgood : LegalAt (R s)) :
    Hangs n (job e n R) := by
  have hn : 1 ≤ n := by omega
  refine ⟨(C07_error_on_one_rank_deadlocks e R hr hs ((not_legal_iff _).mp hbad) ((legal_iff _).mp hgood)).2, ?_⟩
  intro q hq hub
  obtain ⟨f, hsteps, hf⟩ := job_check e hn R
  have h1 := HasUB.of_steps hq hsteps hub
  have hbl : ∃ m, checkTheta (setTime (before R r) (R r)) = throw m := by
    refine ⟨_, checkTheta_throw ?_⟩
    obtain ⟨y, hy, h⟩ := (not_legal_iff _).mp hbad
    by_contra hc
    push Not at hc
    have := (setTime_range (off := before R r) (rows := R r) (fun t => ¬ (Arith.lt t (Arith.ofInt 0) = true) ∧
      ¬ (Arith.lt Arith.pi t = true))).mp (fun y hy => by simpa using hc y hy) y hy
    rcases h with h | h
    · exact this.1 h
    · exact this.2 h
  obtain ⟨m, hm⟩ := hbl
  obtain ⟨w, hw⟩ := HasUB.of_blocked hq (blocked_of_done hr (x := .throw m) (by simp only [hm]; rfl)) h1
  cases hc : checkTheta (setTime (before R q) (R q)) with
  | ok u => simp only [hc] at hw; rw [show (Prog.lift (ok u) : Prog ℝ Unit) >>= f q = f q u from rfl, (hf q).2] at hw; cases hw
  | throw m' => simp only [hc] at hw; injection hw with hw; cases hw
  | ub w' =>
    by_cases hex : ∃ y ∈ setTime (before R q) (R q), Arith.lt y.theta (Arith.ofInt 0) = true ∨ Arith.lt Arith.pi y.theta = true
    · rw [checkTheta_throw hex] at hc; cases hc
    · push Not at hex
      simp only [ne_eq, Bool.not_eq_true] at hex
      rw [(checkTheta_iff _).mpr hex] at hc; cases hc

theorem legalOff_legal (hL : LegalOff n R) : ∀ r < n, LegalAt (R r) := fun r hr y hy => ⟨(hL r hr y hy).1, (hL r hr y hy).2.1⟩

/-- Legal, but a sample on the equator. -/
theorem outcome_equator (hn : 1 ≤ n) (hnb : 0 < e.nbin) (hleg : ∀ r < n, LegalAt (R r)) (hL : ¬ LegalOff n R) :
    ∃ r < n, HasUB n (job e n R) r := by
  unfold LegalOff at hL
  push Not at hL
  obtain ⟨r, hr, y, hy, h⟩ := hL
  exact ⟨r, hr, C43_equator_undefined hn hnb hleg hy (h (hleg r hr y hy).1 (hleg r hr y hy).2)⟩

/-- Legal, off the equator, but the table needs more samples than there are. -/
theorem outcome_nocuts (hn : 1 ≤ n) (hnb : 0 < e.nbin) (hL : LegalOff n R) (hno : ¬ ∃ p, Cuts e.nbin n R p) :
    ∀ r, HasUB n (job e n R) r := by
  have hleg : ∀ r < n, ∀ y ∈ R r, Arith.lt y.theta (Arith.ofInt 0) = false ∧ Arith.lt Arith.pi y.theta = false :=
    fun r hr => (legal_iff _).mp (legalOff_legal hL r hr)
  have hhist : ∀ r < n, localHits e.nbin (R r) = ok _ := fun r hr => C43_histogram_partial hnb (R r) (hL r hr)
  cases hb : boundTable (F := ℝ) e.nbin n (sumCols ((List.range n).map (fun r => (List.range e.nbin).map (fun j : ℕ =>
      (((R r).countP (fun y => decide (binOf e.nbin y.theta = (j : ℤ))) : ℕ) : ℤ)))) e.nbin) (samples n R).length with
  | ok b => exact absurd ((table_iff hnb hL).2 ⟨b, hleg, _, hhist, hb⟩) hno
  | throw m => exact absurd hb (boundTable_nothrow _ _ _ _ _)
  | ub w => exact C43_table_undefined e hn R hleg hhist hb

/-- Everybody takes part. -/
theorem outcome_returns (he : EnvOK e) (hord : e.cfg.order ≤ e.cfg.nphi) (hn : 1 ≤ n) (hnb : 0 < e.nbin) (hL : LegalOff n R)
    {p : ℕ → ℕ} (hp : Cuts e.nbin n R p) (h : (∀ r < n, R r = []) ∨ ∀ s < n, ¬ Idle e.nbin n R p s) :
    ∃ v, Returns n (job e n R) v := by
  have hV := valid_real he hord hn R
  have hT : TagLaw ℝ (total R n) := by rw [← samples_length]; exact hV.tags
  have hD := (table_iff hnb hL).1 p hp
  obtain ⟨H, hH, hB⟩ := hD.table
  rw [samples_length] at hB
  refine ⟨_, (convolve_exec hV.laws hV.ranks R hT hV.ang hD.legal hV.defined H _ hH hB ?_).finish hV.ranks⟩
  rcases h with h | h
  · exact Or.inr h
  · exact Or.inl (fun r hr => (active_iff_idle hn hp r).mpr (h r hr))

/-- Somebody has samples, and somebody neither has nor receives any. -/
theorem outcome_idle (he : EnvOK e) (hord : e.cfg.order ≤ e.cfg.nphi) (hnb : 0 < e.nbin) (hL : LegalOff n R)
    {p : ℕ → ℕ} (hp : Cuts e.nbin n R p) {r s : ℕ} (hr : r < n) (hs : s < n) (hne : R r ≠ []) (hid : Idle e.nbin n R p s) :
    Hangs n (job e n R) := by
  have hn : 1 ≤ n := by omega
  have hV := valid_real he hord hn R
  have hT : TagLaw ℝ (total R n) := by rw [← samples_length]; exact hV.tags
  have hD := (table_iff hnb hL).1 p hp
  obtain ⟨H, hH, hB⟩ := hD.table
  rw [samples_length] at hB
  obtain ⟨tag, htag⟩ := tagOf_exists (F := ℝ) hT
  have hpx := prepare_exec e hn R htag hD.legal H _ hH hB
  have hidle : ¬ active n (cutTable e.nbin n p) R s := by rw [active_iff_idle hn hp]; exact not_not.mpr hid
  obtain ⟨hst, K, hK, hbl, hnd⟩ := exchange_stuck e R tag hr hs (Or.inl hne) hidle
  refine ⟨?_, fun q hq hub => ?_⟩
  · unfold job convolve
    rw [hpx _ _ |>.runAll_eq hn, hst]
  · have h3 := HasUB.of_steps hq ((hpx _ _).trans hK) (P := fun r => prepare e n (R r) >>= _) hub
    obtain ⟨m, hm⟩ := HasUB.of_blocked hq hbl h3
    exact hnd q hq _ hm

/-! ## the four outcomes exclude each other -/

theorem HasUB.not_finished {P : ℕ → Prog ℝ (List (Row ℝ))} {r : ℕ} (hr : r < n) (h : HasUB n P r) (m : String) :
    runAll n P ≠ .finished (List.replicate n (throw m)) := by
  obtain ⟨Q, hQ, w, hw⟩ := h
  rw [hQ.runAll_eq (by omega)]
  intro hf
  by_cases hall : ∀ r < n, ∃ y, Q r = .done y
  · have : Nonempty (Res (List (Row ℝ))) := ⟨.ub w⟩
    choose! y hy using hall
    rw [runAll_congr (by omega) hy, runAll_done (by omega)] at hf
    injection hf with hf
    rw [hy r hr] at hw
    injection hw with hw
    have : ((List.range n).map y)[r]? = some (.ub w) := by simp [hr, hw]
    rw [hf] at this
    simp [hr] at this
  · push Not at hall
    obtain ⟨s, hs, hd⟩ := hall
    rw [runAll_stuck_of_mix Q s r hs hr ?_ (by rw [hw]; rfl)] at hf
    · cases hf
    · cases hp : Q s with
      | done y => exact absurd hp (hd y)
      | call c k => rfl

/-- The cuts are determined by the samples. -/
theorem cuts_unique {nbin : ℕ} {p q : ℕ → ℕ} (hp : Cuts nbin n R p) (hq : Cuts nbin n R q) : ∀ k < n, p k = q k := by
  intro k
  induction k with
  | zero => intro _; rw [hp.zero, hq.zero]
  | succ k ih =>
    intro hk
    have e := ih (by omega)
    have a1 := hp.reach k hk
    have a2 := hp.first k hk (q (k + 1)) (by rw [e]; exact hq.later k hk)
    have b1 := hq.reach k hk
    have b2 := hq.first k hk (p (k + 1)) (by rw [← e]; exact hp.later k hk)
    rw [e] at a1 a2
    rcases Nat.lt_trichotomy (p (k + 1)) (q (k + 1)) with h | h | h
    · have := b2 h; omega
    · exact h
    · have := a2 h; omega

theorem four {cT cU cH cR oT oU oH oR : Prop} (iT : cT → oT) (iU : cU → oU) (iH : cH → oH) (iR : cR → oR) (h : cT ∨ cU ∨ cH ∨ cR)
    (xTU : oT → oU → False) (xTH : oT → oH → False) (xTR : oT → oR → False) (xUH : oU → oH → False) (xUR : oU → oR → False)
    (xHR : oH → oR → False) : (oT ↔ cT) ∧ (oU ↔ cU) ∧ (oH ↔ cH) ∧ (oR ↔ cR) := by
  rcases h with h | h | h | h
  · refine ⟨⟨fun _ => h, iT⟩, ⟨fun o => (xTU (iT h) o).elim, iU⟩, ⟨fun o => (xTH (iT h) o).elim, iH⟩, ⟨fun o => (xTR (iT h) o).elim, iR⟩⟩
  · refine ⟨⟨fun o => (xTU o (iU h)).elim, iT⟩, ⟨fun _ => h, iU⟩, ⟨fun o => (xUH (iU h) o).elim, iH⟩, ⟨fun o => (xUR (iU h) o).elim, iR⟩⟩
  · refine ⟨⟨fun o => (xTH o (iH h)).elim, iT⟩, ⟨fun o => (xUH o (iH h)).elim, iU⟩, ⟨fun _ => h, iH⟩, ⟨fun o => (xHR (iH h) o).elim, iR⟩⟩
  · refine ⟨⟨fun o => (xTR o (iR h)).elim, iT⟩, ⟨fun o => (xUR o (iR h)).elim, iU⟩, ⟨fun o => (xHR o (iR h)).elim, iH⟩, ⟨fun _ => h, iR⟩⟩

/-- **C59** For every number of ranks and every pointing the call of `convolve` ends in exactly one of four ways, and the pointing decides
which.  All ranks throw exactly if every rank has a colatitude outside `[0,pi]`.  The job executes undefined behaviour exactly if all
colatitudes are legal and one of them is `pi/2` or the cuts do not exist.  It hangs exactly if some but not all ranks have an illegal
colatitude, or if all is well but some rank neither has nor receives a sample.  Otherwise all ranks return. -/
theorem C59_outcome (he : EnvOK e) (hord : e.cfg.order ≤ e.cfg.nphi) (hn : 1 ≤ n) (hnb : 0 < e.nbin) :
    (runAll n (job e n R) = .finished (List.replicate n (throw "convolver::convolve: Illegal theta")) ↔ ∀ r < n, ¬ LegalAt (R r)) ∧
    ((∃ r < n, HasUB n (job e n R) r) ↔ (∀ r < n, LegalAt (R r)) ∧
      ((∃ r < n, ∃ y ∈ R r, y.theta = Real.pi / 2) ∨ ¬ ∃ p, Cuts e.nbin n R p)) ∧
    (Hangs n (job e n R) ↔ ((∃ r < n, ¬ LegalAt (R r)) ∧ ∃ s < n, LegalAt (R s)) ∨
      (LegalOff n R ∧ ∃ p, Cuts e.nbin n R p ∧ (∃ r < n, R r ≠ []) ∧ ∃ s < n, Idle e.nbin n R p s)) ∧
    ((∃ v, Returns n (job e n R) v) ↔ LegalOff n R ∧ ∃ p, Cuts e.nbin n R p ∧
      ((∀ r < n, R r = []) ∨ ∀ s < n, ¬ Idle e.nbin n R p s)) := by
  set cT := ∀ r < n, ¬ LegalAt (R r) with hcT
  set cU := (∀ r < n, LegalAt (R r)) ∧ ((∃ r < n, ∃ y ∈ R r, y.theta = Real.pi / 2) ∨ ¬ ∃ p, Cuts e.nbin n R p) with hcU
  set cH := ((∃ r < n, ¬ LegalAt (R r)) ∧ ∃ s < n, LegalAt (R s)) ∨
      (LegalOff n R ∧ ∃ p, Cuts e.nbin n R p ∧ (∃ r < n, R r ≠ []) ∧ ∃ s < n, Idle e.nbin n R p s) with hcH
  set cR := LegalOff n R ∧ ∃ p, Cuts e.nbin n R p ∧ ((∀ r < n, R r = []) ∨ ∀ s < n, ¬ Idle e.nbin n R p s) with hcR
  set oT := runAll n (job e n R) = .finished (List.replicate n (throw "convolver::convolve: Illegal theta")) with hoT
  set oU := ∃ r < n, HasUB n (job e n R) r with hoU
  set oH := Hangs n (job e n R) with hoH
  set oR := ∃ v, Returns n (job e n R) v with hoR
  -- the conditions imply the outcomes
  have iT : cT → oT := outcome_throw hn
  have iU : cU → oU := by
    rintro ⟨h1, h2⟩
    by_cases hL : LegalOff n R
    · rcases h2 with ⟨r, hr, y, hy, h⟩ | h
      · exact absurd h (hL r hr y hy).2.2
      · exact ⟨0, by omega, outcome_nocuts hn hnb hL h 0⟩
    · exact outcome_equator hn hnb h1 hL
  have iH : cH → oH := by
    rintro (⟨⟨r, hr, h1⟩, s, hs, h2⟩ | ⟨hL, p, hp, ⟨r, hr, h1⟩, s, hs, h2⟩)
    · exact outcome_mixed hr hs h1 h2
    · exact outcome_idle he hord hnb hL hp hr hs h1 h2
  have iR : cR → oR := by
    rintro ⟨hL, p, hp, h⟩
    exact outcome_returns he hord hn hnb hL hp h
  -- one of the conditions holds
  have cases4 : cT ∨ cU ∨ cH ∨ cR := by
    by_cases h1 : ∀ r < n, LegalAt (R r)
    · by_cases hL : LegalOff n R
      · by_cases hp : ∃ p, Cuts e.nbin n R p
        · obtain ⟨p, hp⟩ := hp
          by_cases h2 : ∀ r < n, R r = []
          · exact Or.inr (Or.inr (Or.inr ⟨hL, p, hp, Or.inl h2⟩))
          · by_cases h3 : ∀ s < n, ¬ Idle e.nbin n R p s
            · exact Or.inr (Or.inr (Or.inr ⟨hL, p, hp, Or.inr h3⟩))
            · push Not at h2 h3
              exact Or.inr (Or.inr (Or.inl (Or.inr ⟨hL, p, hp, h2, h3⟩)))
        · exact Or.inr (Or.inl ⟨h1, Or.inr hp⟩)
      · refine Or.inr (Or.inl ⟨h1, Or.inl ?_⟩)
        unfold LegalOff at hL
        push Not at hL
        obtain ⟨r, hr, y, hy, h⟩ := hL
        exact ⟨r, hr, y, hy, h (h1 r hr y hy).1 (h1 r hr y hy).2⟩
    · by_cases h2 : ∀ r < n, ¬ LegalAt (R r)
      · exact Or.inl h2
      · push Not at h1 h2
        exact Or.inr (Or.inr (Or.inl (Or.inl ⟨h1, h2⟩)))
  -- the outcomes exclude each other
  have xTU : oT → oU → False := fun a ⟨r, hr, b⟩ => HasUB.not_finished hr b _ a
  have xTH : oT → oH → False := by
    rintro a ⟨b, _⟩
    rw [hoT, b] at a; cases a
  have xTR : oT → oR → False := by
    rintro a ⟨v, b⟩
    unfold Returns at b
    rw [hoT, b] at a
    injection a with a
    have : ((List.range n).map (fun r => (ok (v r) : Res (List (Row ℝ)))))[0]? = some (ok (v 0)) := by
      simp [show 0 < n by omega]
    rw [a] at this
    simp [show 0 < n by omega] at this
  have xUH : oU → oH → False := fun ⟨r, hr, a⟩ b => b.2 r hr a
  have xUR : oU → oR → False := fun ⟨r, hr, a⟩ ⟨v, b⟩ => HasUB.not_returns hr a v b
  have xHR : oH → oR → False := by
    rintro ⟨a, _⟩ ⟨v, b⟩
    unfold Returns at b
    rw [a] at b; cases b
  exact four iT iU iH iR cases4 xTU xTH xTR xUH xUR xHR

/-- The same with the order of the cases: exactly one of the four happens. -/
theorem C59_exactly_one (he : EnvOK e) (hord : e.cfg.order ≤ e.cfg.nphi) (hn : 1 ≤ n) (hnb : 0 < e.nbin) :
    (runAll n (job e n R) = .finished (List.replicate n (throw "convolver::convolve: Illegal theta")) ∨ (∃ r < n, HasUB n (job e n R) r) ∨
      Hangs n (job e n R) ∨ ∃ v, Returns n (job e n R) v) ∧
    (∀ r < n, HasUB n (job e n R) r → ¬ Hangs n (job e n R) ∧ ∀ v, ¬ Returns n (job e n R) v) := by
  obtain ⟨h1, h2, h3, h4⟩ := C59_outcome (R := R) he hord hn hnb
  refine ⟨?_, fun r hr hub => ⟨fun h => h.2 r hr hub, HasUB.not_returns hr hub⟩⟩
  rw [h1, h2, h3, h4]
  by_cases a : ∀ r < n, LegalAt (R r)
  · by_cases hL : LegalOff n R
    · by_cases hp : ∃ p, Cuts e.nbin n R p
      · obtain ⟨p, hp⟩ := hp
        by_cases b : ∀ r < n, R r = []
        · exact Or.inr (Or.inr (Or.inr ⟨hL, p, hp, Or.inl b⟩))
        · by_cases c : ∀ s < n, ¬ Idle e.nbin n R p s
          · exact Or.inr (Or.inr (Or.inr ⟨hL, p, hp, Or.inr c⟩))
          · push Not at b c
            exact Or.inr (Or.inr (Or.inl (Or.inr ⟨hL, p, hp, b, c⟩)))
      · exact Or.inr (Or.inl ⟨a, Or.inr hp⟩)
    · unfold LegalOff at hL
      push Not at hL
      obtain ⟨r, hr, y, hy, h⟩ := hL
      exact Or.inr (Or.inl ⟨a, Or.inl ⟨r, hr, y, hy, h (a r hr y hy).1 (a r hr y hy).2⟩⟩)
  · by_cases b : ∀ r < n, ¬ LegalAt (R r)
    · exact Or.inl b
    · push Not at a b
      exact Or.inr (Or.inr (Or.inl (Or.inl ⟨a, b⟩)))

/-- Two ranks: the cuts exist as soon as there is a sample, so a legal job off the equator never reads behind the histogram. -/
theorem C59_two_ranks {nbin : ℕ} (hnb : 0 < nbin) {R : ℕ → List (Row ℝ)} (hL : LegalOff 2 R) (hs : 0 < (samples 2 R).length) :
    ∃ p, Cuts nbin 2 R p := by
  have hw : (0 : ℝ) < Real.pi / 2 / nbin := by have := Real.pi_pos; positivity
  have hmem : ∀ y ∈ samples 2 R, 0 ≤ y.theta ∧ y.theta ≤ Real.pi ∧ y.theta ≠ Real.pi / 2 := by
    intro y hy
    unfold samples at hy
    obtain ⟨l, hl, hyl⟩ := List.mem_flatten.mp hy
    obtain ⟨r, hr, rfl⟩ := List.mem_map.mp hl
    exact hL r (List.mem_range.mp hr) y hyl
  have h0 : beyond nbin 2 R 0 = (samples 2 R).length := by
    unfold beyond
    rw [List.countP_eq_length]
    intro y hy
    obtain ⟨a, b, _⟩ := hmem y hy
    simp only [Nat.cast_zero, zero_mul, decide_eq_true_eq]
    exact le_min a (by linarith)
  have hN : beyond nbin 2 R nbin = 0 := by
    unfold beyond
    rw [List.countP_eq_zero]
    intro y hy
    obtain ⟨a, b, c⟩ := hmem y hy
    simp only [decide_eq_true_eq, not_le]
    have hnbr : (0 : ℝ) < nbin := by exact_mod_cast hnb
    have : (nbin : ℝ) * (Real.pi / 2 / nbin) = Real.pi / 2 := by field_simp
    rw [this, min_lt_iff]
    rcases lt_or_gt_of_ne c with h | h
    · exact Or.inl h
    · right; linarith
  have hex : ∃ q, 0 < q ∧ beyond nbin 2 R 0 ≤ 2 * (beyond nbin 2 R 0 - beyond nbin 2 R q) := ⟨nbin, hnb, by omega⟩
  classical
  refine ⟨fun k => if k = 0 then 0 else Nat.find hex, rfl, ?_, ?_, ?_, ?_⟩
  all_goals
    intro k hk
    obtain rfl : k = 0 := by omega
  · show 0 < beyond nbin 2 R 0
    omega
  · exact (Nat.find_spec hex).1
  · exact (Nat.find_spec hex).2
  · intro q h1 h2
    have := Nat.find_min hex h2
    push Not at this
    exact this h1

/-! ## examples: each of the four outcomes happens -/

theorem lonely_off : LegalOff 2 lonely := by
  have := Real.pi_pos
  intro r _ y hy
  unfold lonely at hy
  split at hy
  · simp at hy; subst hy
    exact ⟨le_rfl, this.le, by simp only; intro h; linarith⟩
  · simp at hy

theorem lonely_beyond (q : ℕ) : beyond 4 2 lonely q = if q = 0 then 1 else 0 := by
  have := Real.pi_pos
  have hs : samples 2 lonely = [⟨1, 0, 2, 0, 0⟩] := by simp [samples, lonely, List.range_succ]
  unfold beyond
  rw [hs, List.countP_cons, List.countP_nil]
  simp only [sub_zero, min_eq_left this.le]
  by_cases h : q = 0
  · subst h; simp
  · have : (0 : ℝ) < q := by exact_mod_cast (by omega : 0 < q)
    have : ¬ ((q : ℝ) * (Real.pi / 2 / (4 : ℕ)) ≤ 0) := by push Not; positivity
    rw [if_neg h, if_neg (by simpa using this)]

theorem lonely_cuts : Cuts 4 2 lonely (fun k => k) where
  zero := rfl
  rest := fun k hk => by obtain rfl : k = 0 := by omega
                         simp [lonely_beyond]
  later := fun k _ => by omega
  reach := fun k hk => by obtain rfl : k = 0 := by omega
                          simp [lonely_beyond]
  first := fun k hk q h1 h2 => by omega

/-- Two ranks, the only sample (at the pole) on rank 1: the band of rank 0 is empty, rank 1 keeps the sample, rank 0 is idle, the job hangs. -/
example : Hangs 2 (job demoEnv 2 lonely) := by
  rw [(C59_outcome demoEnv_ok (by simp [demoEnv, Cfg.nphi]) (by norm_num) (by norm_num [demoEnv])).2.2.1]
  refine Or.inr ⟨lonely_off, fun k => k, lonely_cuts, ⟨1, by norm_num, by simp [lonely]⟩, 0, by norm_num, by simp [lonely], ?_⟩
  intro t ht
  have hp : poleDist 0 = 0 := by unfold poleDist; rw [sub_zero, min_eq_left Real.pi_pos.le]
  interval_cases t
  · simp [lonely, dests]
  · simp [lonely, dests, hp, dest, edge, List.range_succ]

/-- Three samples in three bins on three ranks: the cuts exist, all ranks return. -/
theorem demo_outcome : LegalOff 3 demoRows ∧ ∃ p, Cuts 4 3 demoRows p ∧ ((∀ r < 3, demoRows r = []) ∨ ∀ s < 3, ¬ Idle 4 3 demoRows p s) := by
  refine (C59_outcome (e := demoEnv) demoEnv_ok (by simp [demoEnv, Cfg.nphi]) (by norm_num) (by norm_num [demoEnv])).2.2.2.mp ?_
  obtain ⟨v, hv, _⟩ := C01_convolve_real demoEnv_ok (by simp [demoEnv, Cfg.nphi]) (n := 3) (by norm_num)
    (R := demoRows) demo_balanced (fun r _ => by simp [demoRows])
  exact ⟨v, hv⟩

/-- Three ranks with all samples in one place: after the first cut no sample is left and the cuts do not exist; undefined behaviour. -/
example : ∃ r < 3, HasUB 3 (job demoEnv 3 (fun _ => [⟨0, 0, 0, 0, 0⟩])) r := by
  rw [(C59_outcome demoEnv_ok (by simp [demoEnv, Cfg.nphi]) (by norm_num) (by norm_num [demoEnv])).2.1]
  have hpi := Real.pi_pos
  refine ⟨fun r _ y hy => ?_, Or.inr ?_⟩
  · simp at hy; subst hy; exact ⟨le_rfl, hpi.le⟩
  · rintro ⟨p, hp⟩
    have h1 := hp.rest 1 (by norm_num)
    have h2 := hp.later 0 (by norm_num)
    rw [hp.zero] at h2
    unfold beyond at h1
    rw [List.countP_pos_iff] at h1
    obtain ⟨y, hy, h⟩ := h1
    simp [samples, List.range_succ] at hy
    subst hy
    simp only [sub_zero, min_eq_left hpi.le, decide_eq_true_eq] at h
    have : (0 : ℝ) < p 1 := by exact_mod_cast h2
    have : 0 < (p 1 : ℝ) * (Real.pi / 2 / (demoEnv.nbin : ℝ)) := by
      have : (0 : ℝ) < demoEnv.nbin := by norm_num [demoEnv]
      positivity
    linarith

/-- All ranks reject their pointing. -/
example : runAll 2 (job demoEnv 2 (fun _ => [⟨0, -1, 0, 0, 0⟩])) =
    .finished (List.replicate 2 (throw "convolver::convolve: Illegal theta")) := by
  rw [(C59_outcome demoEnv_ok (by simp [demoEnv, Cfg.nphi]) (by norm_num) (by norm_num [demoEnv])).1]
  intro r _ h
  have := (h _ (List.mem_singleton.mpr rfl)).1
  norm_num at this

end Verif.Tod
