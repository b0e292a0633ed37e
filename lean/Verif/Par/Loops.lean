import Verif.Par.Generic

/-!
# Work-shared loops whose iterations have separate footprints
-/

namespace Verif.Par
open Verif Res

variable {L V S : Type}

/-- A work-shared loop as it stands in the source: its iterations (given by numbers) and the body as a function of the number of
the executing thread, the iteration and the thread's private data; `pre` is what every thread executes between the previous barrier
(or the start of the region) and the loop. -/
structure Loop (L V S : Type) where
  pre : ℕ → S → Prog L V S
  iters : List ℕ
  body : ℕ → ℕ → S → Prog L V S

/-- `its t` are the iterations dealt to thread `t`, in the order in which it executes them: every iteration goes to exactly one
thread.  (`schedule(static, c)`: `static_dealt` below.) -/
def Dealt {n : ℕ} (its : Fin n → List ℕ) (iters : List ℕ) : Prop := (List.ofFn its).flatten.Perm iters

/-- The phase of a region made by the loop. -/
def Loop.phase (lp : Loop L V S) {n : ℕ} (its : Fin n → List ℕ) : Phase n L V S :=
  fun t s => (lp.pre t s).bind (Prog.forL (its t) (lp.body t))

/-- Iterations with separate footprints whose effects on them do not depend on the private data.
`W i`: doubles iteration `i` may store to; `X t`: further doubles thread `t` (and no other) may access; `R`: doubles that are only loaded. -/
structure LoopOK (lp : Loop L V S) (W : ℕ → Set L) (X : ℕ → Set L) (R : Set L) (Good : S → Prop) (eff : ℕ → (L → V) → L → V) : Prop where
  nodup : lp.iters.Nodup
  preStays : ∀ t s, Stays (X t) R (lp.pre t s)
  preOK : ∀ t s m, Good s → ∃ s', Good s' ∧ (run (lp.pre t s) m).1 = ok s'
  stays : ∀ t, ∀ i ∈ lp.iters, ∀ s, Stays (W i ∪ X t) R (lp.body t i s)
  WW : ∀ i ∈ lp.iters, ∀ j ∈ lp.iters, i ≠ j → ∀ l ∈ W i, l ∉ W j
  WX : ∀ i ∈ lp.iters, ∀ t, ∀ l ∈ W i, l ∉ X t
  WR : ∀ i ∈ lp.iters, ∀ l ∈ W i, l ∉ R
  XX : ∀ t u, t ≠ u → ∀ l ∈ X t, l ∉ X u
  XR : ∀ t, ∀ l ∈ X t, l ∉ R
  effect : ∀ t, ∀ i ∈ lp.iters, ∀ s m, Good s → ∃ s', Good s' ∧ (run (lp.body t i s) m).1 = ok s' ∧
    ∀ l ∈ W i, (run (lp.body t i s) m).2 l = eff i m l
  loc : ∀ i ∈ lp.iters, ∀ m m' : L → V, (∀ l, l ∈ W i ∨ l ∈ R → m l = m' l) → ∀ l ∈ W i, eff i m l = eff i m' l

open Classical in
/-- The combined effect of the iterations. -/
noncomputable def Loop.eff (lp : Loop L V S) (W : ℕ → Set L) (eff : ℕ → (L → V) → L → V) (m : L → V) : L → V :=
  fun l => if h : ∃ i ∈ lp.iters, l ∈ W i then eff h.choose m l else m l

section
variable {lp : Loop L V S} {W : ℕ → Set L} {X : ℕ → Set L} {R : Set L} {Good : S → Prop} {eff : ℕ → (L → V) → L → V}

theorem Loop.eff_in (h : LoopOK lp W X R Good eff) {i : ℕ} (hi : i ∈ lp.iters) {l : L} (hl : l ∈ W i) (m : L → V) :
    lp.eff W eff m l = eff i m l := by
  have ex : ∃ i ∈ lp.iters, l ∈ W i := ⟨i, hi, hl⟩
  unfold Loop.eff
  rw [dif_pos ex]
  by_cases e : ex.choose = i
  · rw [e]
  · exact absurd hl (h.WW _ ex.choose_spec.1 i hi e l ex.choose_spec.2)

theorem Loop.eff_out {l : L} (hl : ∀ i ∈ lp.iters, l ∉ W i) (m : L → V) : lp.eff W eff m l = m l := by
  unfold Loop.eff
  rw [dif_neg]
  rintro ⟨i, hi, hx⟩
  exact hl i hi hx

theorem Loop.eff_congr (h : LoopOK lp W X R Good eff) {m m' : L → V} (hm : ∀ l, (∀ t, l ∉ X t) → m l = m' l) :
    ∀ l, (∀ t, l ∉ X t) → lp.eff W eff m l = lp.eff W eff m' l := by
  intro l hl
  by_cases ex : ∃ i ∈ lp.iters, l ∈ W i
  · obtain ⟨i, hi, hx⟩ := ex
    rw [Loop.eff_in h hi hx, Loop.eff_in h hi hx]
    refine h.loc i hi m m' (fun y hy => hm y (fun t => ?_)) l hx
    rcases hy with hy | hy
    · exact h.WX i hi t y hy
    · exact fun hyx => h.XR t y hyx hy
  · push Not at ex
    rw [Loop.eff_out ex, Loop.eff_out ex]; exact hm l hl

/-- One thread executing some of the iterations. -/
theorem run_iters (h : LoopOK lp W X R Good eff) (t : ℕ) : ∀ (xs : List ℕ), xs.Nodup → (∀ x ∈ xs, x ∈ lp.iters) → ∀ (s : S) (m : L → V),
    Good s → ∃ s' m', run (Prog.forL xs (lp.body t) s) m = (ok s', m') ∧ Good s' ∧ (∀ i ∈ xs, ∀ l ∈ W i, m' l = eff i m l) ∧
      ∀ l, (∀ i ∈ xs, l ∉ W i) → l ∉ X t → m' l = m l
  | [], _, _, s, m, hg => ⟨s, m, rfl, hg, fun _ hi => absurd hi (by simp), fun _ _ _ => rfl⟩
  | x :: xs, hnd, hsub, s, m, hg => by
    obtain ⟨hx, hnd⟩ := List.nodup_cons.mp hnd
    have hxi := hsub x List.mem_cons_self
    obtain ⟨s1, hg1, e1, f1⟩ := h.effect t x hxi s m hg
    set m1 := (run (lp.body t x s) m).2 with hm1
    have er : run (lp.body t x s) m = (ok s1, m1) := Prod.ext e1 rfl
    have fr : ∀ l, l ∉ W x ∪ X t → m1 l = m l := run_frame m (h.stays t x hxi s)
    obtain ⟨s', m', e, hg', hW, hO⟩ := run_iters h t xs hnd (fun y hy => hsub y (List.mem_cons_of_mem _ hy)) s1 m1 hg1
    refine ⟨s', m', ?_, hg', fun i hi l hl => ?_, fun l hl hX => ?_⟩
    · show run (Prog.bind _ _) m = _
      rw [run_bind_ok er, e]
    · rcases List.mem_cons.mp hi with rfl | hi'
      · rw [hO l (fun j hj hlj => ?_) (h.WX _ hxi t l hl), f1 l hl]
        exact h.WW i hxi j (hsub j (List.mem_cons_of_mem _ hj)) (by rintro rfl; exact hx hj) l hl hlj
      · have hii := hsub i (List.mem_cons_of_mem _ hi')
        rw [hW i hi' l hl]
        refine h.loc i hii m1 m (fun y hy => fr y ?_) l hl
        rintro (hw | hX)
        · rcases hy with hy | hy
          · exact h.WW x hxi i hii (by rintro rfl; exact hx hi') y hw hy
          · exact h.WR x hxi y hw hy
        · rcases hy with hy | hy
          · exact h.WX i hii t y hy hX
          · exact h.XR t y hX hy
    · rw [hO l (fun i hi => hl i (List.mem_cons_of_mem _ hi)) hX, fr l]
      rintro (h1 | h1)
      · exact hl x List.mem_cons_self h1
      · exact hX h1

/-- One thread executing what precedes the loop and some of the iterations. -/
theorem run_share (h : LoopOK lp W X R Good eff) (t : ℕ) {xs : List ℕ} (hnd : xs.Nodup) (hx : ∀ x ∈ xs, x ∈ lp.iters) (s : S) (m : L → V)
    (hg : Good s) : ∃ s' m', run ((lp.pre t s).bind (Prog.forL xs (lp.body t))) m = (ok s', m') ∧ Good s' ∧
      (∀ i ∈ xs, ∀ l ∈ W i, m' l = eff i m l) ∧ ∀ l, (∀ i ∈ xs, l ∉ W i) → l ∉ X t → m' l = m l := by
  obtain ⟨s0, hg0, e0⟩ := h.preOK t s m hg
  have e0' : run (lp.pre t s) m = (ok s0, (run (lp.pre t s) m).2) := Prod.ext e0 rfl
  have hf := run_frame m (h.preStays t s)
  obtain ⟨s', m', e, hg', hW, hO⟩ := run_iters h t xs hnd hx s0 (run (lp.pre t s) m).2 hg0
  refine ⟨s', m', by rw [run_bind_ok e0', e], hg', fun i hi l hl => ?_, fun l hl hX => ?_⟩
  · rw [hW i hi l hl]
    refine h.loc i (hx i hi) _ _ (fun y hy => hf y (fun hX => ?_)) l hl
    rcases hy with hy | hy
    · exact h.WX i (hx i hi) t y hy hX
    · exact h.XR t y hX hy
  · rw [hO l hl hX, hf l hX]

/-- All iterations by one thread, in any order: the sequential loop. -/
theorem run_seq (h : LoopOK lp W X R Good eff) (t : ℕ) {xs : List ℕ} (hp : xs.Perm lp.iters) (s : S) (m : L → V) (hg : Good s) :
    ∃ s' m', run ((lp.pre t s).bind (Prog.forL xs (lp.body t))) m = (ok s', m') ∧ Good s' ∧ ∀ l, l ∉ X t → m' l = lp.eff W eff m l := by
  obtain ⟨s', m', e, hg', hW, hO⟩ := run_share h t (hp.symm.nodup h.nodup) (fun x hx => hp.mem_iff.mp hx) s m hg
  refine ⟨s', m', e, hg', fun l hl => ?_⟩
  by_cases ex : ∃ i ∈ lp.iters, l ∈ W i
  · obtain ⟨i, hi, hx⟩ := ex
    rw [Loop.eff_in h hi hx, hW i (hp.mem_iff.mpr hi) l hx]
  · push Not at ex
    rw [Loop.eff_out ex, hO l (fun i hi => ex i (hp.mem_iff.mp hi)) hl]

theorem Dealt.mem {n : ℕ} {its : Fin n → List ℕ} {iters : List ℕ} (hd : Dealt its iters) {i : ℕ} : i ∈ iters ↔ ∃ t, i ∈ its t := by
  rw [← hd.mem_iff, List.mem_flatten]
  constructor
  · rintro ⟨l, hl, hi⟩
    obtain ⟨t, rfl⟩ := (List.mem_ofFn' _ _).mp hl
    exact ⟨t, hi⟩
  · rintro ⟨t, hi⟩
    exact ⟨its t, (List.mem_ofFn' _ _).mpr ⟨t, rfl⟩, hi⟩

theorem Dealt.nodup {n : ℕ} {its : Fin n → List ℕ} {iters : List ℕ} (hd : Dealt its iters) (hn : iters.Nodup) :
    (∀ t, (its t).Nodup) ∧ ∀ t u, t ≠ u → ∀ i ∈ its t, i ∉ its u := by
  have h := hd.symm.nodup hn
  rw [List.nodup_flatten] at h
  refine ⟨fun t => h.1 _ ((List.mem_ofFn' _ _).mpr ⟨t, rfl⟩), fun t u htu i hi hu => ?_⟩
  have hp := h.2
  rw [List.pairwise_ofFn] at hp
  rcases lt_or_gt_of_ne htu with hlt | hlt
  · exact (hp hlt) hi hu
  · exact (hp hlt) hu hi

/-- Footprint of thread `t`. -/
def foot {n : ℕ} (W : ℕ → Set L) (X : ℕ → Set L) (its : Fin n → List ℕ) (t : Fin n) : Set L :=
  {l | (∃ i ∈ its t, l ∈ W i) ∨ l ∈ X t}

theorem loop_apart (h : LoopOK lp W X R Good eff) {n : ℕ} {its : Fin n → List ℕ} (hd : Dealt its lp.iters) (s : Fin n → S) :
    Apart (foot W X its) R (fun t => lp.phase its t (s t)) := by
  have hn := hd.nodup h.nodup
  have hm : ∀ t, ∀ i ∈ its t, i ∈ lp.iters := fun t i hi => hd.mem.mpr ⟨t, hi⟩
  refine ⟨fun t => ?_, fun t u htu l hl hu => ?_, fun t l hl hr => ?_⟩
  · refine Stays.bind (fun s' => Stays.forL _ (fun x hx s => (h.stays t x (hm t x hx) s).mono ?_) _)
      ((h.preStays t (s t)).mono (fun l hl => Or.inr hl))
    rintro l (hl | hl)
    · exact Or.inl ⟨x, hx, hl⟩
    · exact Or.inr hl
  · rcases hl with ⟨i, hi, hl⟩ | hl <;> rcases hu with ⟨j, hj, hu⟩ | hu
    · exact h.WW i (hm t i hi) j (hm u j hj) (by rintro rfl; exact hn.2 t u htu i hi hj) l hl hu
    · exact h.WX i (hm t i hi) u l hl hu
    · exact h.WX j (hm u j hj) t l hu hl
    · exact h.XX t u (fun e => htu (Fin.ext e)) l hl hu
  · rcases hl with ⟨i, hi, hl⟩ | hl
    · exact h.WR i (hm t i hi) l hl hr
    · exact h.XR t l hl hr

/-- Everything about one phase. -/
theorem loop_phase (h : LoopOK lp W X R Good eff) {n : ℕ} {its : Fin n → List ℕ} (hd : Dealt its lp.iters) {m : L → V} {s : Fin n → S}
    (hg : ∀ t, Good (s t)) {c : Cfg n L V S} (hs : Steps (start (lp.phase its) m s) c) :
    ¬ Race c ∧ ¬ Broken c ∧ ∀ s', Arrived c s' → (∀ t, Good (s' t)) ∧ ∀ l, (∀ t, l ∉ X t) → c.mem l = lp.eff W eff m l := by
  have ha := loop_apart h hd s
  obtain ⟨k, hk⟩ := inv_steps ha hs
  have hn := hd.nodup h.nodup
  have hm : ∀ t, ∀ i ∈ its t, i ∈ lp.iters := fun t i hi => hd.mem.mpr ⟨t, hi⟩
  have hrun := fun t : Fin n => run_share h t (hn.1 t) (hm t) (s t) m (hg t)
  refine ⟨no_race ha hk, no_broken hk (fun t => ?_), fun s' hs' => ?_⟩
  · obtain ⟨s', m', e, _⟩ := hrun t
    exact ⟨s', by show (run (Prog.bind _ _) m).1 = _; rw [e]⟩
  · obtain ⟨e1, e2, e3⟩ := arrived_spec hk hs'
    refine ⟨fun t => ?_, fun l hl => ?_⟩
    · obtain ⟨s1, m1, e, hg1, -⟩ := hrun t
      have := e1 t
      change (run (Prog.bind _ _) m).1 = _ at this
      rw [e] at this
      cases this
      exact hg1
    · by_cases ex : ∃ i ∈ lp.iters, l ∈ W i
      · obtain ⟨i, hi, hx⟩ := ex
        obtain ⟨t, ht⟩ := hd.mem.mp hi
        rw [Loop.eff_in h hi hx, e2 t l (Or.inl ⟨i, ht, hx⟩)]
        obtain ⟨s1, m1, e, hg1, hW, -⟩ := hrun t
        show (run (Prog.bind _ _) m).2 l = _
        rw [e]
        exact hW i ht l hx
      · push Not at ex
        rw [Loop.eff_out ex]
        refine e3 l (fun t => ?_)
        rintro (⟨i, hi, hw⟩ | hX)
        · exact ex i (hm t i hi) hw
        · exact hl t hX

end

/-! ## the static schedule -/

theorem static_mem {chunk total n t k : ℕ} : k ∈ static chunk total n t ↔ k < total ∧ (k / chunk) % n = t := by
  unfold static; simp

/-- `schedule(static, chunk)` deals every iteration to exactly one thread. -/
theorem static_dealt {chunk total n : ℕ} (hn : 0 < n) : Dealt (fun t : Fin n => static chunk total n t) (List.range total) := by
  unfold Dealt
  refine (List.perm_ext_iff_of_nodup ?_ List.nodup_range).mpr (fun k => ?_)
  · rw [List.nodup_flatten]
    refine ⟨fun l hl => ?_, ?_⟩
    · obtain ⟨t, rfl⟩ := (List.mem_ofFn' _ _).mp hl
      exact List.nodup_range.filter _
    · rw [List.pairwise_ofFn]
      intro t u htu k h1 h2
      have := (static_mem.mp h1).2
      have := (static_mem.mp h2).2
      have := Fin.lt_def.mp htu
      omega
  · rw [List.mem_flatten, List.mem_range]
    constructor
    · rintro ⟨l, hl, hk⟩
      obtain ⟨t, rfl⟩ := (List.mem_ofFn' _ _).mp hl
      exact (static_mem.mp hk).1
    · intro hk
      exact ⟨_, (List.mem_ofFn' _ _).mpr ⟨⟨(k / chunk) % n, Nat.mod_lt _ hn⟩, rfl⟩, static_mem.mpr ⟨hk, rfl⟩⟩

end Verif.Par
