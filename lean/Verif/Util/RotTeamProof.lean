import Verif.Util.RotTeam

/-!
# `rotate_alm` with real threads (C78): every outcome is that of the serial execution
-/

namespace Verif.RotPar

open Verif Res Verif.Risbo Verif.Num Verif.Harm Verif.PowSpec Verif.Share
open Verif.HalfPi (ND)
open Verif.Par (Prog)

theorem outcomes_all {L α : Type} {N : ℕ} {lp : Par.Loop L ℝ Unit} {X : ℕ → Set L} (hs : Par.Separate X (fun _ : Unit => True) lp)
    {its : Fin N → List ℕ} (hd : Par.Dealt its lp.iters) {M : L → ℝ} {out : (L → ℝ) → α} {Q : α → Prop}
    (hq : ∀ m' s', Par.Ends [lp.phase its] M (fun _ => ()) m' s' → Q (out m')) : ND.All (outcomes (lp.phase its) M out) Q := by
  have hall : ∀ l ∈ [lp], Par.Separate X (fun _ : Unit => True) l := by
    intro l hl
    rw [List.mem_singleton.mp hl]
    exact hs
  have hdeal : Par.Deals [lp] [its] := .cons hd .nil
  constructor
  · obtain ⟨m', s', he⟩ := Par.team_completes hdeal hall M (s := fun _ => ()) (fun _ => trivial)
    exact ⟨_, Or.inl ⟨m', s', he, rfl⟩⟩
  · rintro r (⟨m', s', he, rfl⟩ | ⟨c, hc, hb, -⟩ | h)
    · exact ⟨_, rfl, hq m' s' he⟩
    · have := Par.team_safe hdeal hall (fun _ => trivial) hc
      rcases hb with hb | hb
      · exact absurd hb this.1
      · exact absurd hb this.2
    · obtain ⟨N', hN⟩ := Par.team_bound hdeal hall (P := lp.phase its) (by simp [Par.phases]) M (fun _ => ())
      obtain ⟨c, hc⟩ := h.1 (N' + 1)
      have := hN _ _ hc
      omega

theorem all_imp {α : Type} {x : ND α} {Q Q' : α → Prop} (h : ND.All x Q) (hq : ∀ a, Q a → Q' a) : ND.All x Q' :=
  ⟨h.1, fun r hr => by obtain ⟨a, e, ha⟩ := h.2 r hr; exact ⟨a, e, hq a ha⟩⟩

theorem all_det {α β : Type} {x : Res α} {a : α} {f : α → ND β} {Q : β → Prop} (h : x = ok a) (hf : ND.All (f a) Q) : ND.All (ND.det x >>= f) Q :=
  ND.All.bind (Q := fun b => b = a) (ND.All.det h rfl) (fun b hb => by subst hb; exact hf)

/-! ## The Risbo recursion -/

/-- The serial order of the assignments of half step `j`. -/
def serR (j : ℕ) : List (ℕ × ℕ) := cells ((j + 1) / 2) j

theorem ompCell_value (q p : ℝ) {lmax j k i : ℕ} {d dd : A2} (hk : 1 ≤ k) (hkj : k < j) (hi : i ≤ j) (hjl : j ≤ 2 * lmax)
    (h1 : k < d.n1) (h2 : j < d.n2) (h1' : k < dd.n1) (h2' : j < dd.n2) :
    ompCell q p (sqTab lmax) j d dd k i = ok (dd.upd k i (RisPar.value p q (1 / (j : ℝ)) (fun m : ℕ => √(m : ℝ)) j d.v k i)) := by
  unfold ompCell
  rw [rd_sq (j - k) (by omega) (by omega), rd_sq k rfl (by omega)]
  simp only [ok_bind]
  unfold RisPar.value
  by_cases i0 : i = 0
  · subst i0
    rw [if_pos rfl, rd_sq j rfl hjl]
    simp only [ok_bind]
    rw [A2.get_ok' (i := 0) k 0 (by omega) (by omega) (by omega) (by omega)]
    simp only [ok_bind]
    rw [A2.get_ok' (i := 0) (k - 1) 0 (by omega) (by omega) (by omega) (by omega)]
    simp only [ok_bind]
    rw [A2.put_ok' (i := 0) _ k 0 rfl rfl (by omega) (by omega)]
    simp
  · rw [if_neg i0]
    by_cases hij : i < j
    · rw [if_pos hij, rd_sq (j - i) (by omega) (by omega), rd_sq i rfl (by omega)]
      simp only [ok_bind]
      rw [A2.get_ok' k i (by omega) (by omega) (by omega) (by omega)]
      simp only [ok_bind]
      rw [A2.get_ok' k (i - 1) (by omega) (by omega) (by omega) (by omega)]
      simp only [ok_bind]
      rw [A2.get_ok' (k - 1) i (by omega) (by omega) (by omega) (by omega)]
      simp only [ok_bind]
      rw [A2.get_ok' (k - 1) (i - 1) (by omega) (by omega) (by omega) (by omega)]
      simp only [ok_bind]
      rw [A2.put_ok _ (by omega) (by omega), if_neg i0, if_pos hij]
    · have : i = j := by omega
      subst this
      rw [if_neg hij, rd_sq i rfl hjl]
      simp only [ok_bind]
      rw [A2.get_ok' k (i - 1) (by omega) (by omega) (by omega) (by omega)]
      simp only [ok_bind]
      rw [A2.get_ok' (k - 1) (i - 1) (by omega) (by omega) (by omega) (by omega)]
      simp only [ok_bind]
      rw [A2.put_ok _ (by omega) (by omega), if_neg i0, if_neg hij]

theorem ris_region (q p : ℝ) {lmax n j : ℕ} {d dd : A2} (hj : n < j) (hjl : j ≤ 2 * lmax) (hn : n ≤ lmax) (h1 : d.n1 = lmax + 1)
    (h2 : d.n2 = 2 * lmax + 1) (h1' : dd.n1 = lmax + 1) (h2' : dd.n2 = 2 * lmax + 1) :
    ND.All (risRegion q p (sqTab lmax) n j d dd)
      (fun x => foldRes (fun dd c => ompCell q p (sqTab lmax) j d dd c.1 c.2) dd (cells n j) = ok x) := by
  have hb : RisPar.InBounds (risInputs q p (sqTab lmax) j d dd) n j (fun m : ℕ => √(m : ℝ)) :=
    ⟨by omega, by omega, by simp only [risInputs]; omega, by simp only [risInputs]; omega, by simp only [risInputs]; omega,
      by simp only [risInputs]; omega, fun m hm => rd_sq m rfl (by omega)⟩
  obtain ⟨b, hfold, b1, b2, bv⟩ := fold_cells (fun dd c => ompCell q p (sqTab lmax) j d dd c.1 c.2)
    (fun k i => RisPar.value p q (1 / (j : ℝ)) (fun m : ℕ => √(m : ℝ)) j d.v k i) (lmax + 1) (2 * lmax + 1) (cells n j) dd h1' h2' (by
      rintro dd' e1 e2 ⟨k, i⟩ hc
      have hm := mem_cells.mp hc
      exact ompCell_value q p (by omega) (by omega) (by omega) hjl (by omega) (by omega) (by omega) (by omega))
  have key : ∀ {N : ℕ} {its : Fin N → List ℕ}, Par.Dealt its (List.range' 1 n) →
      ND.All (outcomes ((RisPar.rowLoop (risInputs q p (sqTab lmax) j d dd) n j).phase its) (mem d dd) (table dd.n1 dd.n2))
        (fun x => foldRes (fun dd c => ompCell q p (sqTab lmax) j d dd c.1 c.2) dd (cells n j) = ok x) := by
    intro N its hd
    refine outcomes_all (RisPar.row_separate hb) hd (fun m' s' he => ?_)
    rw [hfold]
    congr 1
    have hv : b.v = fun k i => m' (true, k, i) := by
      funext k i
      rw [bv, RisPar.row_ends hb hd he true k i]
      by_cases hc : (1 ≤ k ∧ k ≤ n) ∧ i ≤ j
      · rw [if_pos (mem_cells.mpr hc), if_pos ⟨rfl, hc⟩]; rfl
      · rw [if_neg (fun h => hc (mem_cells.mp h)), if_neg (fun h => hc h.2)]; rfl
    unfold table
    rw [← hv, h1', h2', ← b1, ← b2]
  constructor
  · have hd : Par.Dealt (fun _ : Fin 1 => List.range' 1 n) (List.range' 1 n) := by simp [Par.Dealt]
    obtain ⟨r, hr⟩ := (key hd).1
    exact ⟨r, 1, _, hd, hr⟩
  · rintro r ⟨N, its, hd, hr⟩
    exact (key hd).2 r hr

theorem half_all (q p : ℝ) {lmax n j : ℕ} {d dd : A2} (hj : n < j) (hjl : j ≤ 2 * lmax) (hn : n ≤ lmax) (h1 : d.n1 = lmax + 1)
    (h2 : d.n2 = 2 * lmax + 1) (h1' : dd.n1 = lmax + 1) (h2' : dd.n2 = 2 * lmax + 1) (hr : ∀ k ≤ n, Row q p d (j - 1) k) :
    ND.All (halfP q p (sqTab lmax) n j d dd) (fun x => ompHalf q p (sqTab lmax) j (cells n j) d dd = ok x) := by
  obtain ⟨a, ha, a1, a2, ar⟩ := ompRow0_spec q p (lmax := lmax) (j := j) (d := d) (dd := dd) (by omega) hjl (by omega)
    (by omega) (by omega) (by omega) (hr 0 (by omega))
  unfold halfP
  refine all_det ha (ND.All.bind (ris_region q p hj hjl hn h1 h2 (by omega) (by omega)) (fun x hx => ND.All.det rfl ?_))
  unfold ompHalf
  rw [ha]; simp only [ok_bind]
  rw [hx]; rfl

theorem step_all (q p : ℝ) {lmax n : ℕ} {d dd : A2} (hn : 2 ≤ n) (hl : n ≤ lmax) (h1 : d.n1 = lmax + 1) (h2 : d.n2 = 2 * lmax + 1)
    (h1' : dd.n1 = lmax + 1) (h2' : dd.n2 = 2 * lmax + 1) (hr : ∀ k < n, Row q p d (2 * n - 2) k) :
    ND.All (stepP q p (sqTab lmax) n d dd) (fun x => ompStep q p (sqTab lmax) n serR d dd = ok x) := by
  obtain ⟨a, ha, a1, a2, ar⟩ := pad_spec q p hn (by omega) (by omega) hr
  unfold stepP
  refine all_det ha (ND.All.bind (half_all q p (lmax := lmax) (n := n) (j := 2 * n - 1) (by omega) (by omega) hl (by omega) (by omega) h1' h2'
    (by rw [show 2 * n - 1 - 1 = 2 * n - 2 by omega]; exact ar)) (fun x hx => ?_))
  obtain ⟨x', hx', x1, x2, x3, xr⟩ := ompHalf_spec q p (lmax := lmax) (n := n) (j := 2 * n - 1) (d := a) (dd := dd) (List.Perm.refl (cells n (2 * n - 1)))
    (by omega) (by omega) hl (by omega) (by omega) h1' h2' (by rw [show 2 * n - 1 - 1 = 2 * n - 2 by omega]; exact ar)
  rw [hx] at hx'
  injection hx' with hx'
  subst hx'
  refine all_imp (half_all q p (lmax := lmax) (n := n) (j := 2 * n) (by omega) (by omega) hl x1 x2 (by rw [x3]; omega) (by rw [x3]; omega) (by exact xr))
    (fun y hy => ?_)
  unfold ompStep serR
  rw [ha]; simp only [ok_bind]
  rw [show (2 * n - 1 + 1) / 2 = n by omega, show (2 * n + 1) / 2 = n by omega, hx]; simp only [ok_bind]
  exact hy

theorem recurse_all {lmax n : ℕ} {θ : ℝ} {r : Rec} (h : Good lmax θ n r) (hn : n + 1 ≤ lmax) :
    ND.All (recurseP r) (fun r' => r.omp serR = ok r' ∧ Good lmax θ (n + 1) r') := by
  obtain ⟨r', hr', hg⟩ := omp_step (s := serR) (fun j => List.Perm.refl _) h hn
  suffices hs : ND.All (recurseP r) (fun r' => r.omp serR = ok r') from all_imp hs (fun a ha => by
    rw [hr'] at ha; injection ha with ha; subst ha; exact ⟨hr', hg⟩)
  obtain ⟨hp, hq, hsq, h1, h2, h1', h2', hn', rows⟩ := h
  have n0 : ¬ (r.n + 1 = 0) := by omega
  unfold recurseP tablesP
  rw [if_neg n0]
  by_cases h0 : n = 0
  · subst h0
    have n1 : r.n + 1 = 1 := by omega
    rw [if_pos n1, hp, hq, hsq]
    obtain ⟨d, hd, d1, d2, dr⟩ := first_spec (Real.cos (θ / 2)) (Real.sin (θ / 2)) (by omega) h1 h2
    rw [hd]
    refine all_det rfl (ND.All.det rfl ?_)
    unfold Rec.omp
    dsimp only
    rw [if_neg n0, if_pos n1, hp, hq, hsq, hd]
    rfl
  · have n1 : ¬ (r.n + 1 = 1) := by omega
    rw [if_neg n1, hp, hq, hsq]
    have e : (r.n + 1).toNat = n + 1 := by omega
    rw [e]
    refine ND.All.bind (step_all (Real.cos (θ / 2)) (Real.sin (θ / 2)) (lmax := lmax) (n := n + 1) (by omega) hn h1 h2 h1' h2' (fun k hk => by
        rw [show 2 * (n + 1) - 2 = 2 * n by omega]; exact rows k (by omega))) (fun x hx => ND.All.det rfl ?_)
    unfold Rec.omp
    dsimp only
    rw [if_neg n0, if_neg n1, hp, hq, hsq, e, hx]
    rfl

theorem recurse_first (lmax : ℕ) (θ : ℝ) (junk junk' : ℕ → ℕ → ℝ) :
    ND.All (recurseP (Rec.new lmax θ junk junk')) (fun r' => (Rec.new lmax θ junk junk').omp serR = ok r' ∧ Good lmax θ 0 r') := by
  obtain ⟨r', hr', hg⟩ := omp_calls lmax θ junk junk' (s := serR) (fun j => List.Perm.refl _) (n := 0) (by omega)
  have hr2 : (Rec.new lmax θ junk junk').omp serR = ok r' := hr'
  suffices hs : ND.All (recurseP (Rec.new lmax θ junk junk')) (fun r' => (Rec.new lmax θ junk junk').omp serR = ok r') from all_imp hs (fun a ha => by
    rw [hr2] at ha; injection ha with ha; subst ha; exact ⟨hr2, hg⟩)
  unfold recurseP tablesP
  rw [if_pos (by simp [Rec.new])]
  rw [A2.put_ok' (k := 0) (i := 0) _ 0 0 rfl rfl (by simp [Rec.new]) (by simp [Rec.new])]
  refine all_det rfl (ND.All.det rfl ?_)
  unfold Rec.omp
  dsimp only
  rw [if_pos (by simp [Rec.new])]
  rw [A2.put_ok' (k := 0) (i := 0) _ 0 0 rfl rfl (by simp [Rec.new]) (by simp [Rec.new])]
  rfl

/-! ## The rotation -/

/-- The execution by one thread. -/
def serT (l : ℕ) : List (ℕ × Ev) := (threadEvents l 0 ((l : ℤ) + 1)).map (fun e => (0, e))

theorem serT_ok (l : ℕ) : Interleaves 1 l (serT l) := by
  refine ⟨fun e he => ?_, fun t ht => ⟨0, (l : ℤ) + 1, ?_, ?_⟩⟩
  · obtain ⟨a, -, rfl⟩ := List.mem_map.mp he
    omega
  · obtain ⟨lo, hi, hok, hlo, hhi, -⟩ := C29_calcShareGeneral_partition 0 ((l : ℤ) + 1) 1 (by omega) (by omega)
    obtain rfl : t = 0 := by omega
    have := hok 0 le_rfl (by omega)
    simp only [sub_self] at hhi
    rw [hlo, hhi] at this
    exact this
  · obtain rfl : t = 0 := by omega
    unfold serT
    rw [List.filter_map, List.map_map]
    simp [Function.comp_def]

/-- What one body adds to `almtmp[m]` of component `c`. -/
noncomputable def addC (A : ℕ → ℕ → ℝ × ℝ) (X : ℕ → ℝ × ℝ) (D : ℕ → ℕ → ℝ) (l c : ℕ) (e : Ev) : ℂ :=
  ⟨incr A X D l c e.m.toNat false e.mm, incr A X D l c e.m.toNat true e.mm⟩

theorem total_eq (A : ℕ → ℕ → ℝ × ℝ) (X : ℕ → ℝ × ℝ) (D : ℕ → ℕ → ℝ) (l c m : ℕ) (z : ℂ) (n : ℕ) :
    z + (((List.range' 1 n).map (evOf (m : ℤ))).map (addC A X D l c)).sum =
      (⟨total A X D l c m false z.re n, total A X D l c m true z.im n⟩ : ℂ) := by
  induction n with
  | zero => simp [total]
  | succ n ih =>
    rw [List.range'_concat, List.map_append, List.map_append, List.sum_append, ← add_assoc, ih, total_succ, total_succ,
      show 1 + 1 * n = n + 1 by omega]
    simp only [List.map_cons, List.map_nil, List.sum_cons, List.sum_nil, add_zero]
    apply Complex.ext
    · simp [addC, evOf]
    · simp [addC, evOf]

theorem rot_region {alms : ℕ → Alm ℂ} {cs : List ℕ} (hcs : cs.Nodup) {lmax l : ℕ} (psi : ℝ) (hwf : ∀ c ∈ cs, (alms c).WF)
    (hl : ∀ c ∈ cs, (alms c).lmax = lmax) (hm : ∀ c ∈ cs, (alms c).mmax = lmax) (hll : l ≤ lmax) {d : A2} (h1 : d.n1 = lmax + 1)
    (h2 : d.n2 = 2 * lmax + 1) {tmps : ℕ → List ℂ} (ht : ∀ c ∈ cs, (tmps c).length = lmax + 1) {size : ℕ} (hsz : size = lmax + 1) :
    ND.All (rotRegion alms cs l (expTab lmax psi) d size tmps)
      (fun out => ∀ c ∈ cs, foldRes (fun tmp (e : ℕ × Ev) => exec (alms c) l (expTab lmax psi) d tmp e.2) (tmps c) (serT l) = ok (out c)) := by
  set A : ℕ → ℕ → ℝ × ℝ := fun c mm => pair (coef (alms c) l mm) with hA
  set X : ℕ → ℝ × ℝ := fun mm => pair ⟨Real.cos (psi * mm), -Real.sin (psi * mm)⟩ with hX
  have cg : ∀ c ∈ cs, ∀ m : ℕ, m ≤ l → (alms c).get l m = ok (coef (alms c) l m) := fun c hc m hmm =>
    get_coef (hwf c hc) (by have := hl c hc; have := hm c hc; refine ⟨?_, ?_, ?_, ?_⟩ <;> omega)
  have hb : InBounds (rotInputs alms l (expTab lmax psi) d size) cs A X d.v := by
    refine ⟨hcs, fun c hc mm _ hmm => ?_, fun mm _ hmm => ?_, fun k i hk hi => ?_, by simp only [rotInputs]; omega⟩
    · simp only [rotInputs] at hmm ⊢
      rw [cg c hc mm hmm]; rfl
    · simp only [rotInputs] at hmm ⊢
      rw [rd_expTab psi (by omega)]; rfl
    · simp only [rotInputs] at hk hi ⊢
      exact A2.get_ok (by omega) (by omega)
  have fold : ∀ c ∈ cs, ∃ t, foldRes (fun tmp (e : ℕ × Ev) => exec (alms c) l (expTab lmax psi) d tmp e.2) (tmps c) (serT l) = ok t ∧
      t.length = lmax + 1 ∧ ∀ m < lmax + 1, t.getD m 0 = if m ≤ l then
        (⟨total A X d.v l c m false ((tmps c).getD m 0).re l, total A X d.v l c m true ((tmps c).getD m 0).im l⟩ : ℂ) else (tmps c).getD m 0 := by
    intro c hc
    obtain ⟨t, h3, h4, h5⟩ := fold_tmp (exec (alms c) l (expTab lmax psi) d) (addC A X d.v l c) (lmax + 1) (serT l) (tmps c) (ht c hc) (by
      intro tmp' hlen' e he
      obtain ⟨m, mm, hml, hmm1, hmml, hev⟩ := interleave_range (serT_ok l) e he
      rw [hev]
      refine ⟨by simp [evOf], by simp only [evOf, Int.toNat_natCast]; omega, ?_⟩
      unfold exec
      simp only [evOf_m, evOf_mm]
      rw [cg c hc mm hmml]; simp only [ok_bind]
      rw [rd_expTab psi (by omega)]; simp only [ok_bind]
      rw [A2.get_ok' (l - mm) (l - m) (by omega) (by omega) (by omega) (by omega)]; simp only [ok_bind]
      rw [A2.get_ok' (l - mm) (l + m) (by omega) (by push_cast; rfl) (by omega) (by omega)]; simp only [ok_bind]
      rw [rd_nat (by omega)]; simp only [ok_bind]
      rw [wr_nat _ (by omega), Int.toNat_natCast]
      congr 2
      have eg : tmp'[m] = tmp'.getD m 0 := by
        have : m < tmp'.length := by omega
        simp [List.getD, this]
      rw [← eg]
      have o1 : decide (((mm : ℤ) + m) % 2 = 1) = decide ((mm + m) % 2 = 1) := by congr 1; apply propext; omega
      have o2 : decide ((mm : ℤ) % 2 = 1) = decide (mm % 2 = 1) := by congr 1; apply propext; omega
      unfold addC incr
      apply Complex.ext
      · simp only [Complex.add_re, evOf, Int.toNat_natCast, o1, o2, sgn, cmul, hA, hX, pair, Complex.mul_re, Bool.false_eq_true, if_false]
      · simp only [Complex.add_im, evOf, Int.toNat_natCast, o1, o2, sgn, cmul, hA, hX, pair, Complex.mul_im, if_true])
    refine ⟨t, h3, h4, fun m hm' => ?_⟩
    rw [h5 m hm']
    by_cases hml : m ≤ l
    · rw [if_pos hml, interleave_filter (by omega) (serT_ok l) (by omega) (by omega), total_eq]
    · rw [if_neg hml, List.filter_eq_nil_iff.mpr]
      · simp
      · intro e he
        obtain ⟨m', mm, hml', -, -, hev⟩ := interleave_range (serT_ok l) e he
        rw [hev]
        simp only [evOf]
        intro h
        have := of_decide_eq_true h
        omega
  have key : ∀ {N : ℕ}, 0 < N → ND.All (outcomes ((rotLoop (rotInputs alms l (expTab lmax psi) d size) cs N).phase (teamOf N)) (memT tmps) (tableT size))
      (fun out => ∀ c ∈ cs, foldRes (fun tmp (e : ℕ × Ev) => exec (alms c) l (expTab lmax psi) d tmp e.2) (tmps c) (serT l) = ok (out c)) := by
    intro N hN
    refine outcomes_all (rot_separate hb N) (team_dealt N) (fun m' s' he c hc => ?_)
    obtain ⟨t, h3, h4, h5⟩ := fold c hc
    rw [h3]
    congr 1
    subst hsz
    apply List.ext_getElem
    · simp [tableT, h4]
    · intro m hm1 hm2
      have e1 : t[m] = t.getD m 0 := by simp [List.getD, hm1]
      rw [e1, h5 m (by omega)]
      have r1 := rot_ends hb hN he (c, m, false)
      have r2 := rot_ends hb hN he (c, m, true)
      simp only [tableT, List.getElem_map, List.getElem_range]
      by_cases hml : m ≤ l
      · rw [if_pos hml, r1.1 ⟨hc, hml⟩, r2.1 ⟨hc, hml⟩]
        rfl
      · rw [if_neg hml, r1.2 (fun h => hml h.2), r2.2 (fun h => hml h.2)]
        rfl
  constructor
  · obtain ⟨r, hr⟩ := (key (N := 1) (by omega)).1
    exact ⟨r, 1, by omega, hr⟩
  · rintro r ⟨N, hN, hr⟩
    exact (key hN).2 r hr

theorem rotateL_split (alm : Alm ℂ) (l : ℕ) (exppsi expphi : List ℂ) (d : A2) (tr : List (ℕ × Ev)) (tmp : List ℂ) :
    rotateL alm l exppsi expphi d tr tmp = (do
      let tmp ← forN (l + 1) (init1 alm l d) tmp
      let tmp ← foldRes (fun tmp (e : ℕ × Ev) => exec alm l exppsi d tmp e.2) tmp tr
      let alm ← forN (l + 1) (store1 l tmp expphi) alm
      ok (alm, tmp)) := rfl

theorem init_ok {alm : Alm ℂ} {lmax l : ℕ} (hwf : alm.WF) (hl : alm.lmax = lmax) (hm : alm.mmax = lmax) (hll : l ≤ lmax) {d : A2}
    (h1 : d.n1 = lmax + 1) (h2 : d.n2 = 2 * lmax + 1) {tmp : List ℂ} (ht : tmp.length = lmax + 1) :
    ∃ t, forN (l + 1) (init1 alm l d) tmp = ok t ∧ t.length = lmax + 1 :=
  forN_inv (l + 1) (init1 alm l d) tmp (fun _ t => t.length = lmax + 1) ht (by
    intro m t hml hlen
    have c0 : alm.get l 0 = ok (coef alm l 0) := get_coef hwf ⟨by omega, by omega, by omega, by omega⟩
    unfold init1
    rw [c0]; simp only [ok_bind]
    rw [A2.get_ok' l (l + m) rfl (by push_cast; rfl) (by omega) (by omega)]
    simp only [ok_bind]
    rw [wr_nat _ (by omega)]
    exact ⟨_, rfl, by simpa using hlen⟩)

theorem rotateL_all {lmax l : ℕ} {psi theta phi : ℝ} {alm : Alm ℂ} (hwf : alm.WF) (hl : alm.lmax = lmax) (hm : alm.mmax = lmax)
    (hll : l ≤ lmax) {d : A2} (h1 : d.n1 = lmax + 1) (h2 : d.n2 = 2 * lmax + 1)
    (hrow : ∀ k ≤ l, Row (Real.cos (theta / 2)) (Real.sin (theta / 2)) d (2 * l) k) {tmp : List ℂ} (htmp : tmp.length = lmax + 1) :
    ND.All (rotateLP alm l (expTab lmax psi) (expTab lmax phi) d tmp)
      (fun x => rotateL alm l (expTab lmax psi) (expTab lmax phi) d (serT l) tmp = ok x) := by
  obtain ⟨b, t, hb, -⟩ := rotateL_spec (psi := psi) (phi := phi) hwf hl hm hll h1 h2 hrow one_pos (serT_ok l) htmp
  rw [hb]
  rw [rotateL_split] at hb
  obtain ⟨t0, i1, i2⟩ := init_ok hwf hl hm hll h1 h2 htmp
  rw [i1] at hb; simp only [ok_bind] at hb
  unfold rotateLP
  refine all_det i1 (ND.All.bind (rot_region (alms := fun _ => alm) (cs := [0]) (by simp) (lmax := lmax) (l := l) psi (fun _ _ => hwf) (fun _ _ => hl)
    (fun _ _ => hm) hll h1 h2 (tmps := fun _ => t0) (fun _ _ => i2) (size := t0.length) i2) (fun out hout => ?_))
  have ho := hout 0 (by simp)
  rw [ho] at hb; simp only [ok_bind] at hb
  obtain ⟨b', hb', hb⟩ := bind_eq_ok.mp hb
  exact all_det hb' (ND.All.det rfl hb.symm)

theorem forN_tri' {A B C : Type} {n : ℕ} {fA : ℕ → A → Res A} {fB : ℕ → B → Res B} {fC : ℕ → C → Res C} {f : ℕ → A × B × C → Res (A × B × C)}
    (hf : ∀ i a b c a' b' c', fA i a = ok a' → fB i b = ok b' → fC i c = ok c' → f i (a, b, c) = ok (a', b', c'))
    {a a' : A} {b b' : B} {c c' : C} (h1 : forN n fA a = ok a') (h2 : forN n fB b = ok b') (h3 : forN n fC c = ok c') :
    forN n f (a, b, c) = ok (a', b', c') := by
  obtain ⟨d, hd, e⟩ := forN_tri (fun a b c d => d = (a, b, c)) fA fB fC f (by
    rintro i a b c d a' b' c' rfl ha hb hc
    exact ⟨_, hf i _ _ _ _ _ _ ha hb hc, rfl⟩) n (d := (a, b, c)) rfl h1 h2 h3
  rw [hd, e]

theorem tri_fold {A B C E : Type} {fA : A → E → Res A} {fB : B → E → Res B} {fC : C → E → Res C} {f : A × B × C → E → Res (A × B × C)}
    (hf : ∀ a b c e a' b' c', fA a e = ok a' → fB b e = ok b' → fC c e = ok c' → f (a, b, c) e = ok (a', b', c')) :
    ∀ (es : List E) {a a' : A} {b b' : B} {c c' : C}, foldRes fA a es = ok a' → foldRes fB b es = ok b' → foldRes fC c es = ok c' →
      foldRes f (a, b, c) es = ok (a', b', c')
  | [], a, a', b, b', c, c', h1, h2, h3 => by cases h1; cases h2; cases h3; rfl
  | e :: es, a, a', b, b', c, c', h1, h2, h3 => by
    rw [foldRes_cons] at h1 h2 h3 ⊢
    obtain ⟨a1, p1, q1⟩ := bind_eq_ok.mp h1
    obtain ⟨b1, p2, q2⟩ := bind_eq_ok.mp h2
    obtain ⟨c1, p3, q3⟩ := bind_eq_ok.mp h3
    rw [hf _ _ _ _ _ _ _ p1 p2 p3]
    exact tri_fold hf es q1 q2 q3

theorem init_tri {aT aG aC : Alm ℂ} {l : ℕ} {d : A2} (m : ℕ) (a b c a' b' c' : List ℂ) (ha : init1 aT l d m a = ok a')
    (hb : init1 aG l d m b = ok b') (hc : init1 aC l d m c = ok c') : init3 aT aG aC l d m (a, b, c) = ok (a', b', c') := by
  unfold init1 at ha hb hc
  obtain ⟨t, p1, ha⟩ := bind_eq_ok.mp ha
  obtain ⟨x, p2, ha⟩ := bind_eq_ok.mp ha
  obtain ⟨g, q1, hb⟩ := bind_eq_ok.mp hb
  rw [p2] at hb; simp only [ok_bind] at hb
  obtain ⟨y, r1, hc⟩ := bind_eq_ok.mp hc
  rw [p2] at hc; simp only [ok_bind] at hc
  unfold init3
  rw [add_comm (m : ℤ), p2]; simp only [ok_bind]
  rw [p1]; simp only [ok_bind]
  rw [ha]; simp only [ok_bind]
  rw [q1]; simp only [ok_bind]
  rw [hb]; simp only [ok_bind]
  rw [r1]; simp only [ok_bind]
  rw [hc]; simp only [ok_bind]

theorem store_tri {l : ℕ} {sT sG sC expphi : List ℂ} (m : ℕ) (a b c a' b' c' : Alm ℂ) (ha : store1 l sT expphi m a = ok a')
    (hb : store1 l sG expphi m b = ok b') (hc : store1 l sC expphi m c = ok c') : store3 l (sT, sG, sC) expphi m (a, b, c) = ok (a', b', c') := by
  unfold store1 at ha hb hc
  obtain ⟨t, p1, ha⟩ := bind_eq_ok.mp ha
  obtain ⟨x, p2, ha⟩ := bind_eq_ok.mp ha
  obtain ⟨g, q1, hb⟩ := bind_eq_ok.mp hb
  rw [p2] at hb; simp only [ok_bind] at hb
  obtain ⟨y, r1, hc⟩ := bind_eq_ok.mp hc
  rw [p2] at hc; simp only [ok_bind] at hc
  unfold store3
  rw [p2]; simp only [ok_bind]
  rw [p1]; simp only [ok_bind]
  rw [ha]; simp only [ok_bind]
  rw [q1]; simp only [ok_bind]
  rw [hb]; simp only [ok_bind]
  rw [r1]; simp only [ok_bind]
  rw [hc]; simp only [ok_bind]

theorem rotateL3_all {lmax l : ℕ} {psi theta phi : ℝ} {alm : Alm ℂ × Alm ℂ × Alm ℂ} (hwf : ∀ c < 3, (comp alm c).WF)
    (hl : ∀ c < 3, (comp alm c).lmax = lmax) (hm : ∀ c < 3, (comp alm c).mmax = lmax)
    (hll : l ≤ lmax) {d : A2} (h1 : d.n1 = lmax + 1) (h2 : d.n2 = 2 * lmax + 1)
    (hrow : ∀ k ≤ l, Row (Real.cos (theta / 2)) (Real.sin (theta / 2)) d (2 * l) k) {tmp : List ℂ × List ℂ × List ℂ}
    (htmp : ∀ c < 3, (comp tmp c).length = lmax + 1) :
    ND.All (rotateL3P alm l (expTab lmax psi) (expTab lmax phi) d tmp)
      (fun x => rotateL3 alm l (expTab lmax psi) (expTab lmax phi) d (serT l) tmp = ok x ∧ (∀ c < 3, (comp x.1 c).WF) ∧
        (∀ c < 3, (comp x.1 c).lmax = lmax) ∧ (∀ c < 3, (comp x.1 c).mmax = lmax) ∧ ∀ c < 3, (comp x.2 c).length = lmax + 1) := by
  have hs : ∀ c < 3, ∃ b t, rotateL (comp alm c) l (expTab lmax psi) (expTab lmax phi) d (serT l) (comp tmp c) = ok (b, t) ∧
      b.WF ∧ b.lmax = lmax ∧ b.mmax = lmax ∧ t.length = lmax + 1 := by
    intro c hc
    obtain ⟨b, t, hb, ht, hw, hbl, hbm, -⟩ := rotateL_spec (psi := psi) (phi := phi) (hwf c hc) (hl c hc) (hm c hc) hll h1 h2 hrow one_pos (serT_ok l) (htmp c hc)
    exact ⟨b, t, hb, hw, hbl, hbm, ht⟩
  have hi := fun c hc => init_ok (hwf c hc) (hl c hc) (hm c hc) hll h1 h2 (htmp c hc)
  obtain ⟨aT, aG, aC⟩ := alm
  obtain ⟨tT, tG, tC⟩ := tmp
  obtain ⟨bT, sT, rT, wT⟩ := hs 0 (by omega)
  obtain ⟨bG, sG, rG, wG⟩ := hs 1 (by omega)
  obtain ⟨bC, sC, rC, wC⟩ := hs 2 (by omega)
  obtain ⟨uT, iT, lT⟩ := hi 0 (by omega)
  obtain ⟨uG, iG, lG⟩ := hi 1 (by omega)
  obtain ⟨uC, iC, lC⟩ := hi 2 (by omega)
  have e0 : ∀ {α : Type} (a b c : α), comp (a, b, c) 0 = a := fun a b c => rfl
  have e1 : ∀ {α : Type} (a b c : α), comp (a, b, c) 1 = b := fun a b c => rfl
  have e2 : ∀ {α : Type} (a b c : α), comp (a, b, c) 2 = c := fun a b c => rfl
  simp only [e0, e1, e2] at rT rG rC iT iG iC
  rw [rotateL_tri rT rG rC]
  rw [rotateL_split, iT] at rT
  rw [rotateL_split, iG] at rG
  rw [rotateL_split, iC] at rC
  simp only [ok_bind] at rT rG rC
  unfold rotateL3P
  refine all_det (forN_tri' init_tri iT iG iC) (ND.All.bind (rot_region (alms := comp (aT, aG, aC)) (cs := [0, 1, 2]) (by simp) (lmax := lmax)
    (l := l) psi (fun c hc => hwf c ?_) (fun c hc => hl c ?_) (fun c hc => hm c ?_) hll h1 h2 (tmps := comp (uT, uG, uC)) (fun c hc => ?_)
    (size := uT.length) lT) (fun out hout => ?_))
  · simp at hc; omega
  · simp at hc; omega
  · simp at hc; omega
  · simp at hc
    rcases hc with rfl | rfl | rfl
    · exact lT
    · exact lG
    · exact lC
  · have o0 := hout 0 (by simp)
    have o1 := hout 1 (by simp)
    have o2 := hout 2 (by simp)
    simp only [e0, e1, e2] at o0 o1 o2
    rw [o0] at rT; rw [o1] at rG; rw [o2] at rC
    simp only [ok_bind] at rT rG rC
    obtain ⟨bT', hT, rT⟩ := bind_eq_ok.mp rT
    obtain ⟨bG', hG, rG⟩ := bind_eq_ok.mp rG
    obtain ⟨bC', hC, rC⟩ := bind_eq_ok.mp rC
    injection rT with rT; injection rT with rT rT'; subst rT; subst rT'
    injection rG with rG; injection rG with rG rG'; subst rG; subst rG'
    injection rC with rC; injection rC with rC rC'; subst rC; subst rC'
    refine all_det (forN_tri' store_tri hT hG hC) (ND.All.det rfl ⟨rfl, ?_⟩)
    have c3 : ∀ c < 3, c = 0 ∨ c = 1 ∨ c = 2 := by omega
    refine ⟨fun c hc => ?_, fun c hc => ?_, fun c hc => ?_, fun c hc => ?_⟩ <;> rcases c3 c hc with rfl | rfl | rfl
    exacts [wT.1, wG.1, wC.1, wT.2.1, wG.2.1, wC.2.1, wT.2.2.1, wG.2.2.1, wC.2.2.1, wT.2.2.2, wG.2.2.2, wC.2.2.2]

/-! ## The loop over the degrees -/

theorem ndForN_all {α : Type} {f : ℕ → α → Res α} {F : ℕ → α → ND α} {P : ℕ → α → Prop} : ∀ (n : ℕ) {a : α}, P 0 a →
    (∀ i < n, ∀ a, P i a → ND.All (F i a) (fun b => f i a = ok b ∧ P (i + 1) b)) → ND.All (ndForN n F a) (fun b => forN n f a = ok b ∧ P n b)
  | 0, a, h, _ => ND.All.det rfl ⟨rfl, h⟩
  | n + 1, a, h, hs => by
    unfold ndForN
    refine ND.All.bind (ndForN_all n h (fun i hi => hs i (by omega))) (fun b hb => ?_)
    refine all_imp (hs n (by omega) b hb.2) (fun x hx => ⟨?_, hx.2⟩)
    rw [forN_succ, hb.1]
    exact hx.1

/-- The execution with one thread. -/
def serX (junk junk' : ℕ → ℕ → ℝ) : Exec := ⟨junk, junk', serR, serT, fun _ => 1, fun _ => List.Perm.refl _, fun l => ⟨one_pos, serT_ok l⟩⟩

/-- The recursion before the call for degree `l`. -/
def Before (lmax : ℕ) (θ : ℝ) (junk junk' : ℕ → ℕ → ℝ) (l : ℕ) (r : Rec) : Prop :=
  if l = 0 then r = Rec.new lmax θ junk junk' else Good lmax θ (l - 1) r

theorem before_all {lmax l : ℕ} {θ : ℝ} {junk junk' : ℕ → ℕ → ℝ} {r : Rec} (h : Before lmax θ junk junk' l r) (hl : l ≤ lmax) :
    ND.All (recurseP r) (fun r' => r.omp serR = ok r' ∧ Good lmax θ l r') := by
  unfold Before at h
  split at h
  · subst h
    have : l = 0 := by assumption
    subst this
    exact recurse_first lmax θ junk junk'
  · obtain ⟨k, rfl⟩ : ∃ k, l = k + 1 := ⟨l - 1, by omega⟩
    exact recurse_all h (by omega)

theorem rotate_all {alm : Alm ℂ} (hwf : alm.WF) (hlm : alm.lmax = alm.mmax) (psi theta phi : ℝ) :
    ND.All (rotateP alm psi theta phi) (fun b => ∃ x : Exec, x.rotate alm psi theta phi = ok b) := by
  have h0 := hwf.1
  obtain ⟨lmax, hl⟩ : ∃ n : ℕ, alm.lmax = n := ⟨alm.lmax.toNat, by omega⟩
  have e1 : alm.lmax.toNat = lmax := by omega
  have e2 : (alm.lmax + 1).toNat = lmax + 1 := by omega
  unfold rotateP
  rw [if_pos hlm]
  rw [e1, e2]
  refine ND.All.bind (ND.All.any (Q := fun r => ∃ junk junk', r = Rec.new lmax theta junk junk') (fun b => ⟨b.1, b.2, rfl⟩)) ?_
  rintro r0 ⟨junk, junk', rfl⟩
  refine ND.All.bind (ndForN_all (f := fun l (r : Rec × Alm ℂ × List ℂ) => do
      let rec' ← r.1.omp serR
      let x ← rotateL r.2.1 l (expTab lmax psi) (expTab lmax phi) rec'.d (serT l) r.2.2
      ok (rec', x)) (P := fun l r => Before lmax theta junk junk' l r.1 ∧ r.2.1.WF ∧ r.2.1.lmax = lmax ∧ r.2.1.mmax = lmax ∧ r.2.2.length = lmax + 1)
    (lmax + 1) ⟨rfl, hwf, hl, hlm ▸ hl, by simp⟩ ?_) ?_
  · rintro l hll ⟨r, a, t⟩ ⟨p1, p2, p3, p4, p5⟩
    unfold degreeP
    refine ND.All.bind (before_all p1 (by omega)) (fun r' hr => ?_)
    obtain ⟨b, t', hb, ht, hw, hbl, hbm, -⟩ := rotateL_spec (psi := psi) (phi := phi) p2 p3 p4 (by omega) hr.2.h1 hr.2.h2 hr.2.rows one_pos (serT_ok l) p5
    refine ND.All.bind (rotateL_all p2 p3 p4 (by omega) hr.2.h1 hr.2.h2 hr.2.rows p5) (fun x hx => ND.All.det rfl ⟨?_, ?_⟩)
    · rw [hr.1]; simp only [ok_bind]
      rw [hx]; rfl
    · rw [hb] at hx
      injection hx with hx
      subst hx
      exact ⟨by unfold Before; rw [if_neg (by omega)]; exact hr.2, hw, hbl, hbm, ht⟩
  · rintro x ⟨hx, -⟩
    refine ND.All.det rfl ⟨serX junk junk', ?_⟩
    unfold Exec.rotate rotateAlm
    rw [if_pos hlm]
    rw [e1, e2]
    exact bind_eq_ok.mpr ⟨x, hx, rfl⟩

theorem rotate3_all {aT aG aC : Alm ℂ} (hT : aT.WF) (hG : aG.WF) (hC : aC.WF) (hlm : aT.lmax = aT.mmax) (hcG : conformable aG aT)
    (hcC : conformable aC aT) (psi theta phi : ℝ) :
    ND.All (rotate3P aT aG aC psi theta phi) (fun b => ∃ x : Exec, x.rotate3 aT aG aC psi theta phi = ok b) := by
  have h0 := hT.1
  obtain ⟨lmax, hl⟩ : ∃ n : ℕ, aT.lmax = n := ⟨aT.lmax.toNat, by omega⟩
  have e1 : aT.lmax.toNat = lmax := by omega
  have e2 : (aT.lmax + 1).toNat = lmax + 1 := by omega
  unfold rotate3P
  rw [if_pos hlm, if_pos ⟨hcG, hcC⟩]
  rw [e1, e2]
  refine ND.All.bind (ND.All.any (Q := fun r => ∃ junk junk', r = Rec.new lmax theta junk junk') (fun b => ⟨b.1, b.2, rfl⟩)) ?_
  rintro r0 ⟨junk, junk', rfl⟩
  have c3 : ∀ c < 3, c = 0 ∨ c = 1 ∨ c = 2 := by omega
  dsimp only
  refine ND.All.bind (ndForN_all (f := rotateStep3 (serX junk junk') (expTab lmax psi) (expTab lmax phi))
    (P := fun l r => Before lmax theta junk junk' l r.1 ∧ (∀ c < 3, (comp r.2.1 c).WF) ∧ (∀ c < 3, (comp r.2.1 c).lmax = lmax) ∧
      (∀ c < 3, (comp r.2.1 c).mmax = lmax) ∧ ∀ c < 3, (comp r.2.2 c).length = lmax + 1)
    (lmax + 1) ⟨rfl, ?_, ?_, ?_, ?_⟩ ?_) ?_
  · intro c hc
    rcases c3 c hc with rfl | rfl | rfl
    exacts [hT, hG, hC]
  · intro c hc
    rcases c3 c hc with rfl | rfl | rfl
    exacts [hl, hcG.1.trans hl, hcC.1.trans hl]
  · intro c hc
    rcases c3 c hc with rfl | rfl | rfl
    exacts [hlm ▸ hl, hcG.2.trans (hlm ▸ hl), hcC.2.trans (hlm ▸ hl)]
  · intro c hc
    rcases c3 c hc with rfl | rfl | rfl <;> exact List.length_replicate
  · rintro l hll ⟨r, a, t⟩ ⟨p1, p2, p3, p4, p5⟩
    unfold degree3P
    refine ND.All.bind (before_all p1 (by omega)) (fun r' hr => ?_)
    refine ND.All.bind (rotateL3_all p2 p3 p4 (by omega) hr.2.h1 hr.2.h2 hr.2.rows p5) (fun y hy => ND.All.det rfl ⟨?_, ?_, hy.2⟩)
    · exact bind_eq_ok.mpr ⟨r', hr.1, bind_eq_ok.mpr ⟨y, hy.1, rfl⟩⟩
    · unfold Before; rw [if_neg (by omega)]; exact hr.2
  · rintro x ⟨hx, -⟩
    refine ND.All.det rfl ⟨serX junk junk', ?_⟩
    unfold Exec.rotate3
    rw [if_pos hlm, if_pos ⟨hcG, hcC⟩]
    rw [e1, e2]
    exact bind_eq_ok.mpr ⟨x, hx, rfl⟩

end Verif.RotPar
