import Verif.Util.RisboProof
import Verif.Util.PowSpec
import Verif.Index.ShareProps
import Verif.Index.AlmProps
import Verif.Fft.General
import Mathlib.Data.List.Count

/-!
# Rotation of spherical harmonic coefficients (C47): the model

levels/Healpix_cxx/alm_powspec_tools.cc:299-348 (`rotate_alm`), ls_openmp_support.h:84-91.  Exact arithmetic.
-/

namespace Verif.Risbo

open Verif Res Verif.Num Verif.Harm Verif.PowSpec Verif.Share

/-- One execution of the innermost loop body, alm_powspec_tools.cc:333-340: the values of the loop variables and of the two
thread-local flags. -/
structure Ev where
  mm : ℕ
  m : ℤ
  flip : Bool
  flip2 : Bool
  deriving DecidableEq

/-- The loop over `m`, alm_powspec_tools.cc:332-340 (`flip2 = !flip2` after each body). -/
def rowEv (mm : ℕ) (flip : Bool) : Bool → ℤ → ℕ → List Ev
  | _, _, 0 => []
  | f2, m, n + 1 => ⟨mm, m, flip, f2⟩ :: rowEv mm flip (!f2) (m + 1) n

/-- The loop over `mm`, alm_powspec_tools.cc:329-342, with `n` iterations left. -/
def thrEv (lo hi : ℤ) : Bool → ℕ → ℕ → List Ev
  | _, _, 0 => []
  | f, mm, n + 1 => rowEv mm f (decide ((mm + lo) % 2 = 1)) lo (hi - lo).toNat ++ thrEv lo hi (!f) (mm + 1) n

/-- What a thread that got the share `[lo, hi)` does, alm_powspec_tools.cc:328-342. -/
def threadEvents (l : ℕ) (lo hi : ℤ) : List Ev := thrEv lo hi true 1 l

/-- The body, alm_powspec_tools.cc:331, 335-338. -/
noncomputable def exec (alm : Alm ℂ) (l : ℕ) (exppsi : List ℂ) (d : A2) (tmp : List ℂ) (e : Ev) : Res (List ℂ) := do
  let a ← alm.get l e.mm
  let x ← rd exppsi e.mm
  let t1 := a * x
  let u ← d.get ((l : ℤ) - e.mm) ((l : ℤ) - e.m)
  let v ← d.get ((l : ℤ) - e.mm) ((l : ℤ) + e.m)
  let d1 := if e.flip2 then -u else u
  let d2 := if e.flip then -v else v
  let c ← rd tmp e.m
  wr tmp e.m ⟨c.re + t1.re * (d1 + d2), c.im + t1.im * (d1 - d2)⟩

/-- The parallel region for degree `l` with `nthr` threads: `tr` is one interleaving of the loop bodies, each labelled with its
thread.  Every thread works through the share that `openmp_calc_share` (ls_openmp_support.h:84-91) gives it, in order. -/
def Interleaves (nthr l : ℕ) (tr : List (ℕ × Ev)) : Prop :=
  (∀ e ∈ tr, e.1 < nthr) ∧
  ∀ t < nthr, ∃ lo hi, calcShareGeneral 0 ((l : ℤ) + 1) nthr t = ok (lo, hi) ∧
    (tr.filter (fun e => e.1 = t)).map Prod.snd = threadEvents l lo hi

/-- The statements for one degree, alm_powspec_tools.cc:318-346; `tmp` is `almtmp`. -/
noncomputable def rotateL (alm : Alm ℂ) (l : ℕ) (exppsi expphi : List ℂ) (d : A2) (tr : List (ℕ × Ev)) (tmp : List ℂ) :
    Res (Alm ℂ × List ℂ) := do
  let tmp ← forN (l + 1) (fun m tmp => do
    let a ← alm.get l 0
    let x ← d.get l ((l : ℤ) + m)
    wr tmp m (a * x)) tmp
  let tmp ← foldRes (fun tmp e => exec alm l exppsi d tmp e.2) tmp tr
  let alm ← forN (l + 1) (fun m alm => do
    let x ← rd tmp m
    let e ← rd expphi m
    alm.put l m (x * e)) alm
  ok (alm, tmp)

/-- The tables `exppsi`, `expphi`, alm_powspec_tools.cc:305-310. -/
noncomputable def expTab (lmax : ℕ) (a : ℝ) : List ℂ :=
  (List.range (lmax + 1)).map (fun m : ℕ => (⟨Real.cos (a * m), -Real.sin (a * m)⟩ : ℂ))

/-- `rotate_alm`, alm_powspec_tools.cc:299-348.  `junk`, `junk'` are the initial contents of the tables of the recursion, `sR` the
executions of its parallel loops and `sT` those of the parallel regions of this function. -/
noncomputable def rotateAlm (junk junk' : ℕ → ℕ → ℝ) (sR : ℕ → List (ℕ × ℕ)) (sT : ℕ → List (ℕ × Ev)) (alm : Alm ℂ)
    (psi theta phi : ℝ) : Res (Alm ℂ) :=
  if alm.lmax = alm.mmax then do
    let r ← forN (alm.lmax + 1).toNat (fun l (r : Rec × Alm ℂ × List ℂ) => do
      let rec' ← r.1.omp sR
      let x ← rotateL r.2.1 l (expTab alm.lmax.toNat psi) (expTab alm.lmax.toNat phi) rec'.d (sT l) r.2.2
      ok (rec', x)) (Rec.new alm.lmax.toNat theta junk junk', alm, List.replicate (alm.lmax.toNat + 1) 0)
    ok r.2.1
  else throw "rotate_alm: lmax must be equal to mmax"

/-! ## The interleavings -/

/-- The body for `(mm, m)` with the flags it must have. -/
def evOf (m : ℤ) (mm : ℕ) : Ev := ⟨mm, m, decide ((mm : ℤ) % 2 = 1), decide ((mm + m) % 2 = 1)⟩

theorem not_odd (x : ℤ) : (!decide (x % 2 = 1)) = decide ((x + 1) % 2 = 1) := by
  by_cases h : x % 2 = 1
  · rw [decide_eq_true h, decide_eq_false (by omega)]; rfl
  · rw [decide_eq_false h, decide_eq_true (by omega)]; rfl

theorem rowEv_eq (mm : ℕ) (n : ℕ) (a : ℤ) : rowEv mm (decide ((mm : ℤ) % 2 = 1)) (decide ((mm + a) % 2 = 1)) a n =
    (List.range n).map (fun i : ℕ => evOf (a + i) mm) := by
  induction n generalizing a with
  | zero => rfl
  | succ n ih =>
    rw [rowEv, not_odd, add_assoc, ih (a + 1), List.range_succ_eq_map, List.map_cons, List.map_map]
    congr 1
    · simp [evOf]
    · apply List.map_congr_left
      intro i _
      simp only [Function.comp]
      congr 1
      push_cast; ring

theorem thrEv_eq (lo hi : ℤ) (n mm : ℕ) : thrEv lo hi (decide ((mm : ℤ) % 2 = 1)) mm n =
    (List.range' mm n).flatMap (fun k => (List.range (hi - lo).toNat).map (fun i : ℕ => evOf (lo + i) k)) := by
  induction n generalizing mm with
  | zero => rfl
  | succ n ih =>
    have := ih (mm + 1)
    push_cast at this
    rw [thrEv, not_odd, this, List.range'_succ, List.flatMap_cons, rowEv_eq]

theorem filter_range (n k : ℕ) : (List.range n).filter (fun i => i = k) = if k < n then [k] else [] := by
  rw [show (fun i => decide (i = k)) = (fun i => i == k) from by funext i; rfl]
  rw [List.filter_beq]
  split
  · rename_i h
    rw [List.count_eq_one_of_mem List.nodup_range (List.mem_range.mpr h)]; rfl
  · rename_i h
    rw [List.count_eq_zero_of_not_mem (by simpa using h)]; rfl

theorem threadEvents_filter (l : ℕ) (lo hi m : ℤ) : (threadEvents l lo hi).filter (fun e => e.m = m) =
    if lo ≤ m ∧ m < hi then (List.range' 1 l).map (evOf m) else [] := by
  have h : threadEvents l lo hi = _ := thrEv_eq lo hi l 1
  rw [h, List.filter_flatMap]
  have inner : ∀ k, List.filter (fun e : Ev => decide (e.m = m))
      ((List.range (hi - lo).toNat).map (fun i : ℕ => evOf (lo + i) k)) = if lo ≤ m ∧ m < hi then [evOf m k] else [] := by
    intro k
    rw [List.filter_map]
    by_cases hm : lo ≤ m
    · have : ((fun e : Ev => decide (e.m = m)) ∘ fun i : ℕ => evOf (lo + i) k) = fun i : ℕ => decide (i = (m - lo).toNat) := by
        funext i
        simp only [Function.comp, evOf]
        congr 1
        apply propext
        omega
      rw [this, filter_range]
      by_cases hh : m < hi
      · rw [if_pos (by omega), if_pos ⟨hm, hh⟩]
        simp only [List.map_cons, List.map_nil]
        rw [show lo + ((m - lo).toNat : ℤ) = m by omega]
      · rw [if_neg (by omega), if_neg (by omega)]; rfl
    · rw [if_neg (by omega)]
      rw [List.filter_eq_nil_iff.mpr]
      · rfl
      · intro i _
        simp only [Function.comp, evOf, decide_eq_true_eq]
        intro hc; have := of_decide_eq_true hc; omega
  simp only [inner]
  split
  · induction List.range' 1 l with
    | nil => rfl
    | cons a t ih => simp [List.flatMap_cons, ih]
  · simp

theorem share_exists (F : ℕ → ℤ) (m : ℤ) (n : ℕ) (h0 : F 0 ≤ m) (hn : m < F n) : ∃ t < n, F t ≤ m ∧ m < F (t + 1) := by
  induction n with
  | zero => omega
  | succ n ih =>
    by_cases h : m < F n
    · obtain ⟨t, ht, a, b⟩ := ih h
      exact ⟨t, by omega, a, b⟩
    · exact ⟨n, by omega, by omega, hn⟩

/-- Every `m` belongs to exactly one thread. -/
theorem owner {nthr l : ℕ} (hn : 0 < nthr) {m : ℤ} (h0 : 0 ≤ m) (hm : m ≤ l) : ∃ t < nthr, ∀ t' < nthr, ∀ lo hi,
    calcShareGeneral 0 ((l : ℤ) + 1) nthr t' = ok (lo, hi) → (lo ≤ m ∧ m < hi ↔ t' = t) := by
  obtain ⟨lo, hi, hok, hlo, hhi, hnext, hle, -⟩ := C29_calcShareGeneral_partition 0 ((l : ℤ) + 1) nthr (by omega) (by omega)
  let F : ℕ → ℤ := fun t => if t < nthr then lo t else (l : ℤ) + 1
  have hF : ∀ t < nthr, F t = lo t ∧ F (t + 1) = hi t := by
    intro t ht
    refine ⟨if_pos ht, ?_⟩
    by_cases h : t + 1 < nthr
    · have := hnext t (by omega) (by omega)
      simp only [F]
      rw [if_pos h, this]; push_cast; rfl
    · have e : (nthr : ℤ) - 1 = t := by omega
      simp only [F]
      rw [if_neg h, ← hhi, e]
  have mono : Monotone F := by
    apply monotone_nat_of_le_succ
    intro t
    by_cases h : t < nthr
    · rw [(hF t h).1, (hF t h).2]; exact hle t (by omega) (by omega)
    · simp only [F]; rw [if_neg h, if_neg (by omega)]
  obtain ⟨t, ht, a, b⟩ := share_exists F m nthr (by have := (hF 0 hn).1; rw [this]; simpa [hlo] using h0)
    (by simp only [F]; rw [if_neg (by omega)]; omega)
  refine ⟨t, ht, ?_⟩
  intro t' ht' lo' hi' h
  rw [hok t' (by omega) (by omega)] at h
  simp only [Res.ok.injEq, Prod.mk.injEq] at h
  obtain ⟨rfl, rfl⟩ := h
  rw [← (hF t' ht').1, ← (hF t' ht').2]
  constructor
  · rintro ⟨c, d⟩
    rcases Nat.lt_trichotomy t' t with h | h | h
    · have := mono (show t' + 1 ≤ t by omega); omega
    · exact h
    · have := mono (show t + 1 ≤ t' by omega); omega
  · rintro rfl
    exact ⟨a, b⟩

/-- Whatever the number of threads and the interleaving, the bodies that update one `almtmp[m]` are the same, in the same order. -/
theorem interleave_filter {nthr l : ℕ} (hn : 0 < nthr) {tr : List (ℕ × Ev)} (h : Interleaves nthr l tr) {m : ℤ} (h0 : 0 ≤ m)
    (hm : m ≤ l) : (tr.filter (fun e => e.2.m = m)).map Prod.snd = (List.range' 1 l).map (evOf m) := by
  obtain ⟨t, ht, ho⟩ := owner hn h0 hm
  obtain ⟨hlt, hthr⟩ := h
  obtain ⟨lo, hi, hs, hf⟩ := hthr t ht
  have key : tr.filter (fun e => e.2.m = m) = (tr.filter (fun e => e.1 = t)).filter (fun e => e.2.m = m) := by
    rw [List.filter_filter]
    apply List.filter_congr
    intro e he
    by_cases hem : e.2.m = m
    · have h1 := hlt e he
      obtain ⟨lo', hi', hs', hf'⟩ := hthr e.1 h1
      have hmem : e.2 ∈ threadEvents l lo' hi' := by
        rw [← hf']
        exact List.mem_map.mpr ⟨e, List.mem_filter.mpr ⟨he, by simp⟩, rfl⟩
      have h2 : e.2 ∈ (threadEvents l lo' hi').filter (fun e => e.m = m) := List.mem_filter.mpr ⟨hmem, by simp [hem]⟩
      rw [threadEvents_filter] at h2
      by_cases hc : lo' ≤ m ∧ m < hi'
      · have := (ho e.1 h1 lo' hi' hs').mp hc
        simp [hem, this]
      · rw [if_neg hc] at h2; simp at h2
    · simp [hem]
  have e2 : ((tr.filter (fun e => e.1 = t)).filter (fun e => e.2.m = m)).map Prod.snd =
      ((tr.filter (fun e => e.1 = t)).map Prod.snd).filter (fun e => e.m = m) := by
    rw [List.filter_map]; rfl
  rw [key, e2, hf, threadEvents_filter, if_pos ((ho t ht lo hi hs).mpr rfl)]

theorem interleave_range {nthr l : ℕ} {tr : List (ℕ × Ev)} (h : Interleaves nthr l tr) :
    ∀ e ∈ tr, ∃ (m : ℕ) (mm : ℕ), m ≤ l ∧ 1 ≤ mm ∧ mm ≤ l ∧ e.2 = evOf m mm := by
  intro e he
  obtain ⟨hlt, hthr⟩ := h
  have h1 := hlt e he
  obtain ⟨lo, hi, hs, hf⟩ := hthr e.1 h1
  have hmem : e.2 ∈ threadEvents l lo hi := by
    rw [← hf]
    exact List.mem_map.mpr ⟨e, List.mem_filter.mpr ⟨he, by simp⟩, rfl⟩
  have h2 : e.2 ∈ (threadEvents l lo hi).filter (fun x => x.m = e.2.m) := List.mem_filter.mpr ⟨hmem, by simp⟩
  rw [threadEvents_filter] at h2
  by_cases hc : lo ≤ e.2.m ∧ e.2.m < hi
  · rw [if_pos hc] at h2
    obtain ⟨mm, hmm, e'⟩ := List.mem_map.mp h2
    simp only [List.mem_range'_1] at hmm
    obtain ⟨lo', hi', hok, hlo, hhi, hnext, hle, -⟩ := C29_calcShareGeneral_partition 0 ((l : ℤ) + 1) nthr (by omega) (by omega)
    have b1 : ∀ t : ℕ, t < nthr → 0 ≤ lo' t := by
      intro t
      induction t with
      | zero => intro _; simp [hlo]
      | succ t ih =>
        intro ht
        have := hnext t (by omega) (by omega)
        have := hle t (by omega) (by omega)
        have := ih (by omega)
        push_cast; omega
    have b2 : ∀ s t : ℕ, t + s + 1 = nthr → hi' t ≤ (l : ℤ) + 1 := by
      intro s
      induction s with
      | zero =>
        intro t ht
        rw [← hhi, show (nthr : ℤ) - 1 = t by omega]
      | succ s ih =>
        intro t ht
        have h1 := ih (t + 1) (by omega)
        have h2 := hnext t (by omega) (by omega)
        have h3 := hle (t + 1) (by omega) (by omega)
        push_cast at h1; omega
    rw [hok _ (by omega) (by omega)] at hs
    simp only [Res.ok.injEq, Prod.mk.injEq] at hs
    obtain ⟨rfl, rfl⟩ := hs
    have c1 := b1 e.1 h1
    have c2 := b2 (nthr - 1 - e.1) e.1 (by omega)
    refine ⟨e.2.m.toNat, mm, by omega, by omega, by omega, ?_⟩
    rw [show ((e.2.m.toNat : ℕ) : ℤ) = e.2.m by omega, e']
  · rw [if_neg hc] at h2; simp at h2

end Verif.Risbo
