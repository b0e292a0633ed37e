import Verif.Num.RingData

/-!
# The kernel when its preconditions fail

Lemmas for the library-level statements in `Api/ConvFail.lean`: the kernel throws only for `lmax = 0`; an access to a
coefficient that does not exist, or an overflow in the first `prepare`, is undefined behaviour of the whole computation of
a rank.
-/

namespace Verif.Num
open Verif Res

/-! ## no exception -/

/-- Not an exception. -/
structure NoThrow {α : Type} (x : Res α) : Prop where
  no : ∀ m, x ≠ Res.throw m

theorem NoThrow.ok {α : Type} (a : α) : NoThrow (ok a) := ⟨fun _ h => by cases h⟩
theorem NoThrow.ub {α : Type} (w : String) : NoThrow (ub w : Res α) := ⟨fun _ h => by cases h⟩

theorem NoThrow.bind {α β : Type} {x : Res α} {f : α → Res β} (h : NoThrow x) (hf : ∀ a, NoThrow (f a)) : NoThrow (x >>= f) := by
  cases x with
  | ok a => exact hf a
  | throw m => exact absurd rfl (h.no m)
  | ub w => exact NoThrow.ub w

theorem NoThrow.ite {α : Type} {p : Prop} [Decidable p] {x y : Res α} (h1 : NoThrow x) (h2 : NoThrow y) :
    NoThrow (if p then x else y) := by split <;> assumption

theorem NoThrow.rd {α : Type} (xs : List α) (i : ℤ) : NoThrow (rd xs i) := by
  unfold Verif.rd; split
  · exact NoThrow.ok _
  · exact NoThrow.ub _

theorem NoThrow.wr {α : Type} (xs : List α) (i : ℤ) (v : α) : NoThrow (wr xs i v) := by
  unfold Verif.wr; split
  · exact NoThrow.ok _
  · exact NoThrow.ub _

theorem NoThrow.forN {σ : Type} {f : ℕ → σ → Res σ} (h : ∀ i s, NoThrow (f i s)) : ∀ (n : ℕ) (s : σ), NoThrow (forN n f s)
  | 0, s => NoThrow.ok s
  | n + 1, s => NoThrow.bind (NoThrow.forN h n s) (h n)

theorem NoThrow.forL {β σ : Type} {f : β → σ → Res σ} (h : ∀ i s, NoThrow (f i s)) : ∀ (xs : List β) (s : σ), NoThrow (forL xs f s)
  | [], s => NoThrow.ok s
  | x :: xs, s => NoThrow.bind (h x s) (fun t => NoThrow.forL h xs t)

theorem NoThrow.mapM {α β : Type} {f : α → Res β} (h : ∀ a, NoThrow (f a)) : ∀ (xs : List α), NoThrow (xs.mapM f) := by
  intro xs
  induction xs with
  | nil => exact NoThrow.ok _
  | cons x xs ih =>
    rw [List.mapM_cons]
    exact NoThrow.bind (h x) (fun _ => NoThrow.bind ih (fun _ => NoThrow.ok _))

theorem NoThrow.rd3 {α : Type} (a : A3 α) (i j k : ℤ) : NoThrow (rd3 a i j k) := by
  unfold Num.rd3; exact NoThrow.ite (NoThrow.ok _) (NoThrow.ub _)

theorem NoThrow.upd3 {α : Type} (a : A3 α) (i j k : ℤ) (f : α → α) : NoThrow (upd3 a i j k f) := by
  unfold Num.upd3; exact NoThrow.ite (NoThrow.ok _) (NoThrow.ub _)

theorem stepRec_noThrow (fx : List F3) (c : ℝ) (l : ℤ) (a b : ℝ) : NoThrow (stepRec fx c l a b) :=
  NoThrow.bind (NoThrow.rd _ _) (fun _ => NoThrow.ok _)

theorem renorm_noThrow : ∀ (n : ℕ) (a b : ℝ) (s : ℤ), NoThrow (renorm n a b s)
  | 0, _, _, _ => NoThrow.ub _
  | n + 1, a, b, s => by
    unfold renorm
    exact NoThrow.ite (renorm_noThrow n _ _ _) (NoThrow.ok _)

theorem phase1_noThrow (fx : List F3) (c : ℝ) (lmax : ℤ) : ∀ (n : ℕ) (l : ℤ) (a b : ℝ) (s : ℤ), NoThrow (phase1 fx c lmax n l a b s)
  | 0, _, _, _, _ => NoThrow.ub _
  | n + 1, l, a, b, s => by
    unfold phase1
    refine NoThrow.ite (NoThrow.ite (NoThrow.ok _) (NoThrow.bind (stepRec_noThrow ..) (fun _ =>
      NoThrow.ite (NoThrow.ok _) (NoThrow.bind (stepRec_noThrow ..) (fun _ => NoThrow.bind (renorm_noThrow ..) (fun _ =>
        phase1_noThrow fx c lmax n _ _ _ _)))))) (NoThrow.ok _)

theorem phase2_noThrow (fx : List F3) (c eps : ℝ) (lmax : ℤ) : ∀ (n : ℕ) (l : ℤ) (a b : ℝ), NoThrow (phase2 fx c eps lmax n l a b)
  | 0, _, _, _ => NoThrow.ub _
  | n + 1, l, a, b => by
    unfold phase2
    refine NoThrow.ite (NoThrow.ite (NoThrow.ok _) (NoThrow.bind (stepRec_noThrow ..) (fun _ =>
      NoThrow.ite (NoThrow.ok _) (NoThrow.bind (stepRec_noThrow ..) (fun _ => phase2_noThrow fx c eps lmax n _ _ _)))))
      (NoThrow.ok _)

theorem phase3_noThrow (fx : List F3) (c eps : ℝ) (lmax l : ℤ) (a b : ℝ) : NoThrow (phase3 fx c eps lmax l a b) := by
  unfold phase3
  exact NoThrow.ite (NoThrow.ite (NoThrow.bind (stepRec_noThrow ..) (fun _ => NoThrow.ok _)) (NoThrow.ok _)) (NoThrow.ok _)

theorem phase4_noThrow (fx : List F3) (c : ℝ) (lmax : ℤ) : ∀ (n : ℕ) (l : ℤ) (a b : ℝ) (r : List ℝ), NoThrow (phase4 fx c lmax n l a b r)
  | 0, _, _, _, _ => NoThrow.ub _
  | n + 1, l, a, b, r => by
    unfold phase4
    exact NoThrow.ite (NoThrow.bind (stepRec_noThrow ..) (fun _ => NoThrow.bind (NoThrow.wr ..) (fun _ =>
      NoThrow.bind (stepRec_noThrow ..) (fun _ => NoThrow.bind (NoThrow.wr ..) (fun _ => phase4_noThrow fx c lmax n _ _ _ _)))))
      (NoThrow.ok _)

theorem phase5_noThrow (fx : List F3) (c : ℝ) (lmax : ℤ) : ∀ (n : ℕ) (l : ℤ) (a b : ℝ) (r : List ℝ), NoThrow (phase5 fx c lmax n l a b r)
  | 0, _, _, _, _ => NoThrow.ub _
  | n + 1, l, a, b, r => by
    unfold phase5
    exact NoThrow.ite (NoThrow.ok _) (NoThrow.bind (stepRec_noThrow ..) (fun _ => NoThrow.bind (NoThrow.wr ..) (fun _ =>
      NoThrow.ite (NoThrow.ok _) (NoThrow.bind (stepRec_noThrow ..) (fun _ => NoThrow.bind (NoThrow.wr ..) (fun _ =>
        phase5_noThrow fx c lmax n _ _ _ _))))))

theorem wcalc_noThrow (g : Gen) (n : ℤ) (res : List ℝ) : NoThrow (wcalc g n res) := by
  unfold wcalc
  refine NoThrow.bind (NoThrow.rd ..) (fun _ => NoThrow.bind (NoThrow.rd ..) (fun _ => NoThrow.bind (NoThrow.rd ..) (fun _ =>
    NoThrow.bind (NoThrow.rd ..) (fun _ => NoThrow.bind (phase1_noThrow ..) (fun _ => NoThrow.ite (NoThrow.ok _)
    (NoThrow.bind (NoThrow.rd ..) (fun _ => NoThrow.bind (phase2_noThrow ..) (fun _ => NoThrow.bind (phase3_noThrow ..) (fun _ =>
    NoThrow.ite (NoThrow.ok _) (NoThrow.bind (NoThrow.wr ..) (fun _ => NoThrow.bind (phase4_noThrow ..) (fun _ =>
    NoThrow.bind (phase5_noThrow ..) (fun _ => NoThrow.ok _)))))))))))))

theorem mulI_noThrow {ovf : Res ℤ} (h : NoThrow ovf) (a b : ℤ) : NoThrow (mulI ovf a b) := NoThrow.ite (NoThrow.ok _) h

theorem prepTable_noThrow (g : Gen) (a b c : ℤ) (x y : Bool) : NoThrow (prepTable g a b c x y) := by
  unfold prepTable
  refine NoThrow.ite (NoThrow.ite (NoThrow.forN (fun _ _ => NoThrow.bind (NoThrow.rd ..) (fun _ => NoThrow.wr ..)) _ _)
    (NoThrow.ok _)) (NoThrow.forN (fun _ _ => NoThrow.bind ?_ (fun _ => NoThrow.wr ..)) _ _)
  unfold fxEntry
  repeat' first
    | exact NoThrow.ok _
    | exact NoThrow.rd ..
    | refine NoThrow.bind (NoThrow.rd ..) (fun _ => ?_)

theorem prepare_noThrow {ovf : Res ℤ} (h : NoThrow ovf) (g : Gen) (a b : ℤ) : NoThrow (prepare ovf g a b) := by
  unfold prepare
  exact NoThrow.ite (NoThrow.ok _) (NoThrow.bind (mulI_noThrow h ..) (fun _ => NoThrow.bind (mulI_noThrow h ..) (fun _ =>
    NoThrow.bind (prepTable_noThrow ..) (fun _ => NoThrow.bind (NoThrow.rd ..) (fun _ => NoThrow.bind (NoThrow.rd ..) (fun _ =>
    NoThrow.bind (NoThrow.rd ..) (fun _ => NoThrow.ok _)))))))

theorem prods_noThrow (pol : Bool) (s b : Exps) (i j k : ℤ) : NoThrow (prods pol s b i j k) := by
  unfold prods Harm.Alm.get
  refine NoThrow.ite ?_ ?_
  · repeat' first
      | exact NoThrow.ok _
      | exact NoThrow.rd ..
      | refine NoThrow.bind (NoThrow.rd ..) (fun _ => ?_)
  · repeat' first
      | exact NoThrow.ok _
      | exact NoThrow.rd ..
      | refine NoThrow.bind (NoThrow.rd ..) (fun _ => ?_)

theorem incr_noThrow (a : A3 ℂ) (i j k : ℤ) (x y : ℝ) : NoThrow (incr a i j k x y) := NoThrow.upd3 ..

theorem term_noThrow (pol : Bool) (s b : Exps) (lmax mb m lat : ℤ) (x y : ℝ) (d dn : List ℝ) (l : ℤ) (st : KS) :
    NoThrow (term pol s b lmax mb m lat x y d dn l st) := by
  unfold term
  refine NoThrow.bind (NoThrow.rd ..) (fun _ => NoThrow.bind (NoThrow.rd ..) (fun _ => NoThrow.bind (prods_noThrow ..) (fun _ =>
    NoThrow.bind (incr_noThrow ..) (fun _ => NoThrow.bind (incr_noThrow ..) (fun _ => ?_)))))
  unfold termNeg
  exact NoThrow.ite (NoThrow.bind (incr_noThrow ..) (fun _ => NoThrow.bind (incr_noThrow ..) (fun _ => NoThrow.ok _))) (NoThrow.ok _)

theorem latBody_noThrow (pol : Bool) (s b : Exps) (lmax : ℕ) (mb m : ℤ) (lat : ℕ) (q : TS × A3 ℂ × A3 ℂ) :
    NoThrow (latBody pol s b lmax mb m lat q) := by
  unfold latBody
  exact NoThrow.bind (wcalc_noThrow ..) (fun _ => NoThrow.bind (wcalc_noThrow ..) (fun _ =>
    NoThrow.bind (NoThrow.forN (fun _ _ => term_noThrow ..) _ _) (fun _ => NoThrow.ok _)))

theorem mskyBody_noThrow {ovf : Res ℤ} (h : NoThrow ovf) (pol : Bool) (s b : Exps) (lmax nlat mb m : ℕ) (q : TS × A3 ℂ × A3 ℂ) :
    NoThrow (mskyBody ovf pol s b lmax nlat mb m q) := by
  unfold mskyBody
  exact NoThrow.bind (prepare_noThrow h ..) (fun _ => NoThrow.bind (prepare_noThrow h ..) (fun _ =>
    NoThrow.forN (fun _ _ => latBody_noThrow ..) _ _))

theorem accumulate_noThrow {ovf : Res ℤ} (h : NoThrow ovf) (sc : Sched) (pol : Bool) (s b : Exps) {lmax : ℕ} (h0 : 0 < lmax)
    (npsi : ℕ) (ths : List ℝ) (acc : ℝ) : NoThrow (accumulate ovf sc pol s b lmax npsi ths acc) := by
  unfold accumulate mkGen
  rw [if_neg (by omega), ok_bind]
  exact NoThrow.bind (NoThrow.forL (fun _ _ => NoThrow.forL (fun _ _ => NoThrow.bind (mskyBody_noThrow h ..)
    (fun _ => NoThrow.ok _)) _ _) _ _) (fun _ => NoThrow.ok _)

theorem todAnnulus_noThrow (oA oB oC : List ℕ) (fft : List ℂ → List ℂ) (lmax npsi nlat : ℕ) (C : A3 ℂ) :
    NoThrow (todAnnulus oA oB oC fft lmax npsi nlat C) := by
  unfold todAnnulus annulusA annulusB annulusC
  refine NoThrow.bind (NoThrow.forL (fun _ _ => NoThrow.bind (NoThrow.rd ..) (fun _ => NoThrow.bind (NoThrow.rd ..) (fun _ =>
    NoThrow.forL (fun _ _ => NoThrow.forL (fun _ _ => NoThrow.upd3 ..) _ _) _ _))) _ _) (fun _ => ?_)
  refine NoThrow.bind (NoThrow.forL (fun _ _ => NoThrow.forL (fun _ _ => NoThrow.bind (NoThrow.mapM (fun _ => NoThrow.rd3 ..) _)
    (fun _ => NoThrow.forL (fun _ _ => NoThrow.bind (NoThrow.rd ..) (fun _ => NoThrow.upd3 ..)) _ _)) _ _) _ _) (fun _ => ?_)
  exact NoThrow.forL (fun _ _ => NoThrow.bind (NoThrow.rd ..) (fun _ => NoThrow.bind (NoThrow.rd ..) (fun _ =>
    NoThrow.forL (fun _ _ => NoThrow.bind (NoThrow.rd ..) (fun _ => NoThrow.bind (NoThrow.rd ..) (fun _ =>
      NoThrow.forL (fun _ _ => NoThrow.upd3 ..) _ _))) _ _))) _ _

theorem kernelCubes_noThrow {ovf : Res ℤ} (h : NoThrow ovf) (o : Orders) (fft : List ℂ → List ℂ) (pol : Bool) (s b : Exps)
    {lmax : ℕ} (h0 : 0 < lmax) (npsi : ℕ) (ths : List ℝ) (acc : ℝ) :
    NoThrow (kernelCubes ovf o fft pol s b lmax npsi ths acc) := by
  unfold kernelCubes
  exact NoThrow.bind (accumulate_noThrow h _ pol s b h0 ..) (fun _ => NoThrow.bind (todAnnulus_noThrow ..) (fun _ =>
    NoThrow.bind (todAnnulus_noThrow ..) (fun _ => NoThrow.ok _)))

/-- A kernel that cannot complete is undefined. -/
theorem kernelRings_ub {ovf : Res ℤ} (h : NoThrow ovf) (o : Orders) (fft : List ℂ → List ℂ) (pol : Bool) (s b : Exps)
    {c : Tod.Cfg} (h0 : 0 < c.lmax) (eps : ℝ) (mine : List ℕ)
    (hne : ∀ T, kernelCubes ovf o fft pol s b c.lmax c.npsi (mine.map (fun i : ℕ => Tod.ringTheta c i)) eps ≠ ok T) :
    ∃ w, kernelRings ovf o fft pol s b c eps mine = ub w := by
  unfold kernelRings
  cases hk : kernelCubes ovf o fft pol s b c.lmax c.npsi (mine.map (fun i : ℕ => Tod.ringTheta c i)) eps with
  | ok T => exact absurd hk (hne T)
  | throw m => exact absurd hk ((kernelCubes_noThrow h o fft pol s b h0 _ _ _).no m)
  | ub w => exact ⟨w, rfl⟩

/-- `lmax = 0`: the generator throws. -/
theorem kernelRings_lmax_zero (ovf : Res ℤ) (o : Orders) (fft : List ℂ → List ℂ) (pol : Bool) (s b : Exps)
    {c : Tod.Cfg} (h0 : c.lmax = 0) (eps : ℝ) (mine : List ℕ) :
    kernelRings ovf o fft pol s b c eps mine = Res.throw "lmax too small" := by
  unfold kernelRings kernelCubes accumulate mkGen
  rw [if_pos h0]
  rfl

/-- Overflow undefined: the first `prepare` is the end. -/
theorem kernelRings_overflow {msg : String} {o : Orders} {pol : Bool} {c : Tod.Cfg} (ho : o.sc.OK c.lmax)
    (fft : List ℂ → List ℂ) (s b : Exps) (h0 : 0 < c.lmax) (eps : ℝ) (mine : List ℕ) :
    kernelRings (ub msg) o fft pol s b c eps mine = ub msg := by
  obtain ⟨g, e, hT, f1, f2, f3, f4⟩ := tables_mkGen (ths := mine.map (fun i : ℕ => Tod.ringTheta c i)) (eps := eps) h0
  have hord : ∃ x xs, o.sc.order 0 = x :: xs := by
    have h := (ho 0).length_eq
    cases hx : o.sc.order 0 with
    | nil => rw [hx] at h; simp at h
    | cons x xs => exact ⟨x, xs, rfl⟩
  obtain ⟨x, xs, hx⟩ := hord
  unfold kernelRings kernelCubes accumulate
  rw [e, ok_bind]
  have hnp : List.range c.npsi = 0 :: (List.range' 1 c.mbeam) := by
    unfold Tod.Cfg.npsi
    rw [List.range_eq_range', List.range'_succ]
  dsimp only
  rw [hnp]
  have key : ∀ (z : PS), z.thr (o.sc.thread 0 x) = ⟨g, g, List.replicate (c.lmax + 1) 0, List.replicate (c.lmax + 1) 0⟩ →
      forL (o.sc.order 0) (fun msky (st : PS) => do
        let q ← mskyBody (ub msg) pol s b c.lmax (mine.map (fun i : ℕ => Tod.ringTheta c i)).length 0 msky
          (st.thr (o.sc.thread 0 msky), st.C1, st.C2)
        ok ⟨Function.update st.thr (o.sc.thread 0 msky) q.1, q.2.1, q.2.2⟩) z = ub msg := by
    intro z hz
    rw [hx]
    show Res.bind _ _ = _
    dsimp only
    rw [hz]
    unfold mskyBody prepare
    dsimp only
    rw [f1, f2, if_neg (by omega)]
    simp only [mulI]
    norm_num
    rfl
  dsimp only [forL, foldRes_cons]
  have k := key (PS.mk (fun _ => ⟨g, g, List.replicate (c.lmax + 1) 0, List.replicate (c.lmax + 1) 0⟩)
    (zero3 (2 * c.lmax + 1) c.npsi (mine.map (fun i : ℕ => Tod.ringTheta c i)).length)
    (zero3 (2 * c.lmax + 1) c.npsi (mine.map (fun i : ℕ => Tod.ringTheta c i)).length)) rfl
  unfold forL at k
  rw [k]
  rfl

/-! ## an access out of range -/

theorem forN_ok_step {σ : Type} {f : ℕ → σ → Res σ} (P : σ → Prop) (hs : ∀ i t t', P t → f i t = ok t' → P t') :
    ∀ {n : ℕ} {s t : σ}, P s → forN n f s = ok t → P t ∧ ∀ i < n, ∃ s' t', P s' ∧ f i s' = ok t' := by
  intro n
  induction n with
  | zero => intro s t h0 h; cases h; exact ⟨h0, fun i hi => absurd hi (by omega)⟩
  | succ n ih =>
    intro s t h0 h
    rw [forN_succ] at h
    obtain ⟨u, hu, hf⟩ := bind_eq_ok.mp h
    obtain ⟨h1, h2⟩ := ih h0 hu
    refine ⟨hs n u t h1 hf, fun i hi => ?_⟩
    rcases Nat.lt_succ_iff_lt_or_eq.mp hi with hi | rfl
    · exact h2 i hi
    · exact ⟨u, t, h1, hf⟩

theorem forL_ok_step {β σ : Type} {f : β → σ → Res σ} (P : σ → Prop) : ∀ {xs : List β} {s t : σ},
    (∀ i ∈ xs, ∀ t t', P t → f i t = ok t' → P t') → P s → forL xs f s = ok t →
    P t ∧ ∀ i ∈ xs, ∃ s' t', P s' ∧ f i s' = ok t' := by
  intro xs
  induction xs with
  | nil => intro s t _ h0 h; cases h; exact ⟨h0, fun i hi => absurd hi (by simp)⟩
  | cons x xs ih =>
    intro s t hs h0 h
    obtain ⟨u, hu, hf⟩ := bind_eq_ok.mp (show (f x s >>= fun u => forL xs f u) = ok t from h)
    have hPu := hs x (by simp) _ _ h0 hu
    obtain ⟨h1, h2⟩ := ih (fun i hi => hs i (by simp [hi])) hPu hf
    refine ⟨h1, fun i hi => ?_⟩
    rcases List.mem_cons.mp hi with rfl | hi
    · exact ⟨s, u, h0, hu⟩
    · exact h2 i hi

/-- A pass over one ring that completes leaves the thread usable, and has read the products of every degree from the first. -/
theorem latBody_reads {ovf : Res ℤ} {v : ℤ} (hovf : ovf = ok v) {pol : Bool} {s b : Exps} {lmax : ℕ} (h0 : 0 < lmax)
    (hL : lmax < 46341) {ths : List ℝ} {eps : ℝ} {mb m lat : ℕ} (hm : m ≤ lmax) (hmb : mb ≤ lmax)
    (hlat : lat < ths.length) {q q' : TS × A3 ℂ × A3 ℂ} (ht : TSOK lmax ths eps q.1) (hp1 : Prepared q.1.g mb m)
    (hp2 : Prepared q.1.gneg mb (-m)) (hok : latBody pol s b lmax mb m lat q = ok q') :
    (TSOK lmax ths eps q'.1 ∧ Prepared q'.1.g mb m ∧ Prepared q'.1.gneg mb (-m)) ∧
      ∀ l, kfirst ovf lmax ths eps mb m lat ≤ l → l ≤ lmax → ∃ p, prods pol s b l m mb = ok p := by
  have hmbl : |(mb : ℤ)| ≤ lmax := by rw [abs_of_nonneg (by omega)]; omega
  have hml : |(m : ℤ)| ≤ lmax := by rw [abs_of_nonneg (by omega)]; omega
  have hml' : |(-m : ℤ)| ≤ lmax := by rw [abs_neg]; exact hml
  obtain ⟨a1, a2, _, _, a5⟩ := calc_any hovf h0 hL (eps := eps) hmbl hml hlat
  obtain ⟨c1, c2, _, _, c5⟩ := calc_any hovf h0 hL (eps := eps) hmbl hml' hlat
  obtain ⟨r, er, lr, gr⟩ := a5 q.1.g ht.T1 hp1 q.1.buf ht.b1
  obtain ⟨rn, ern, lrn, grn⟩ := c5 q.1.gneg ht.T2 hp2 q.1.bufneg ht.b2
  unfold latBody at hok
  rw [er, ok_bind, ern, ok_bind] at hok
  dsimp only at hok
  have hmax : max (firstDeg ovf lmax ths eps mb m lat : ℤ) (firstDeg ovf lmax ths eps mb (-m) lat : ℤ) =
      ((kfirst ovf lmax ths eps mb m lat : ℕ) : ℤ) := by unfold kfirst; push_cast; rfl
  rw [hmax] at hok
  obtain ⟨st, hst, hq⟩ := bind_eq_ok.mp hok
  cases hq
  refine ⟨⟨⟨ht.T1, ht.F1, ht.T2, ht.F2, lr, lrn⟩, hp1, hp2⟩, fun l h1 h2 => ?_⟩
  obtain ⟨-, hstep⟩ := forN_ok_step (fun _ => True) (fun _ _ _ _ _ => trivial) trivial hst
  obtain ⟨s', t', -, hx⟩ := hstep (l - kfirst ovf lmax ths eps mb m lat) (by omega)
  have e : ((kfirst ovf lmax ths eps mb m lat : ℕ) : ℤ) + ((l - kfirst ovf lmax ths eps mb m lat : ℕ) : ℤ) = (l : ℤ) := by omega
  rw [e] at hx
  unfold term at hx
  obtain ⟨_, -, hx⟩ := bind_eq_ok.mp hx
  obtain ⟨_, -, hx⟩ := bind_eq_ok.mp hx
  obtain ⟨p, hp, -⟩ := bind_eq_ok.mp hx
  exact ⟨p, hp⟩

/-- The same for the loop over all rings. -/
theorem mskyBody_reads {ovf : Res ℤ} {v : ℤ} (hovf : ovf = ok v) {pol : Bool} {s b : Exps} {lmax : ℕ} (h0 : 0 < lmax)
    (hL : lmax < 46341) {ths : List ℝ} {eps : ℝ} {mb m : ℕ} (hm : m ≤ lmax) (hmb : mb ≤ lmax)
    {q q' : TS × A3 ℂ × A3 ℂ} (ht : TSOK lmax ths eps q.1) (hok : mskyBody ovf pol s b lmax ths.length mb m q = ok q') :
    TSOK lmax ths eps q'.1 ∧
      ∀ lat < ths.length, ∀ l, kfirst ovf lmax ths eps mb m lat ≤ l → l ≤ lmax → ∃ p, prods pol s b l m mb = ok p := by
  have hmbl : |(mb : ℤ)| ≤ lmax := by rw [abs_of_nonneg (by omega)]; omega
  have hml : |(m : ℤ)| ≤ lmax := by rw [abs_of_nonneg (by omega)]; omega
  have hml' : |(-m : ℤ)| ≤ lmax := by rw [abs_neg]; exact hml
  obtain ⟨g, eg, hTg, hPg⟩ := prepare_ok hovf hL ht.T1 ht.F1 hmbl hml
  obtain ⟨gn, egn, hTgn, hPgn⟩ := prepare_ok hovf hL ht.T2 ht.F2 hmbl hml'
  unfold mskyBody at hok
  rw [eg, ok_bind, egn, ok_bind] at hok
  have hF : FreshOr g lmax := Or.inr ⟨mb, m, hmbl, hml, hPg⟩
  have hFn : FreshOr gn lmax := Or.inr ⟨mb, -m, hmbl, hml', hPgn⟩
  -- indices beyond the rings are not visited: use a loop over those below
  have key : ∀ n ≤ ths.length, ∀ q', forN n (fun lat q => latBody pol s b lmax mb m lat q)
      ({ q.1 with g := g, gneg := gn }, q.2) = ok q' →
      (TSOK lmax ths eps q'.1 ∧ Prepared q'.1.g mb m ∧ Prepared q'.1.gneg mb (-m)) ∧
      ∀ lat < n, ∀ l, kfirst ovf lmax ths eps mb m lat ≤ l → l ≤ lmax → ∃ p, prods pol s b l m mb = ok p := by
    intro n
    induction n with
    | zero =>
      intro _ q' h
      cases h
      exact ⟨⟨⟨hTg, hF, hTgn, hFn, ht.b1, ht.b2⟩, hPg, hPgn⟩, fun lat hl => absurd hl (by omega)⟩
    | succ n ih =>
      intro hn q' h
      rw [forN_succ] at h
      obtain ⟨u, hu, hf⟩ := bind_eq_ok.mp h
      obtain ⟨⟨k1, k2, k3⟩, k4⟩ := ih (by omega) u hu
      obtain ⟨r1, r2⟩ := latBody_reads hovf h0 hL hm hmb (by omega) k1 k2 k3 hf
      refine ⟨r1, fun lat hl => ?_⟩
      rcases Nat.lt_succ_iff_lt_or_eq.mp hl with hl | rfl
      · exact k4 lat hl
      · exact r2
  obtain ⟨k, k'⟩ := key ths.length (le_refl _) q' hok
  exact ⟨k.1, k'⟩

/-- The accumulation completes only if every coefficient it asks for exists. -/
theorem accumulate_reads {ovf : Res ℤ} {v : ℤ} (hovf : ovf = ok v) {pol : Bool} {s b : Exps} {lmax npsi : ℕ} (h0 : 0 < lmax)
    (hL : lmax < 46341) (hnp : npsi ≤ lmax + 1) {sc : Sched} (hsc : sc.OK lmax) {ths : List ℝ} {eps : ℝ} {C : A3 ℂ × A3 ℂ}
    (hok : accumulate ovf sc pol s b lmax npsi ths eps = ok C) {mb m lat l : ℕ} (hmb : mb < npsi) (hm : m ≤ lmax)
    (hlat : lat < ths.length) (h1 : kfirst ovf lmax ths eps mb m lat ≤ l) (h2 : l ≤ lmax) :
    ∃ p, prods pol s b l m mb = ok p := by
  obtain ⟨g, e, hT, hf⟩ := tables_mkGen (ths := ths) (eps := eps) h0
  unfold accumulate at hok
  rw [e, ok_bind] at hok
  obtain ⟨st, hst, -⟩ := bind_eq_ok.mp hok
  let P : PS → Prop := fun st => ∀ i, TSOK lmax ths eps (st.thr i)
  have inner : ∀ k < npsi, ∀ t t' : PS, P t →
      forL (sc.order k) (fun msky (st : PS) => do
        let q ← mskyBody ovf pol s b lmax ths.length k msky (st.thr (sc.thread k msky), st.C1, st.C2)
        ok ⟨Function.update st.thr (sc.thread k msky) q.1, q.2.1, q.2.2⟩) t = ok t' →
      P t' ∧ ∀ x ∈ sc.order k, ∃ s' t', P s' ∧ (do
        let q ← mskyBody ovf pol s b lmax ths.length k x (s'.thr (sc.thread k x), s'.C1, s'.C2)
        ok (⟨Function.update s'.thr (sc.thread k x) q.1, q.2.1, q.2.2⟩ : PS)) = ok t' := by
    intro k hk t t' ht h
    refine forL_ok_step P (fun x hx u u' hu hu' => ?_) ht h
    obtain ⟨q, hq, hq'⟩ := bind_eq_ok.mp hu'
    cases hq'
    have hx' : x ≤ lmax := by
      have := (hsc k).mem_iff.mp hx
      rw [List.mem_range] at this; omega
    obtain ⟨k1, -⟩ := mskyBody_reads hovf h0 hL hx' (by omega) (hu _) hq
    intro i
    show TSOK lmax ths eps (Function.update u.thr (sc.thread k x) q.1 i)
    by_cases hi : i = sc.thread k x
    · subst hi; rw [Function.update_self]; exact k1
    · rw [Function.update_of_ne hi]; exact hu i
  obtain ⟨-, hstep⟩ := forL_ok_step P (fun k hk t t' ht h => (inner k (by simpa using hk) t t' ht h).1)
    (fun i => ⟨hT, Or.inl hf, hT, Or.inl hf, by simp, by simp⟩) hst
  obtain ⟨s1, t1, hP1, hx1⟩ := hstep mb (by simpa using hmb)
  obtain ⟨-, hx2⟩ := inner mb hmb s1 t1 hP1 hx1
  obtain ⟨s2, t2, hP2, hx3⟩ := hx2 m ((hsc mb).mem_iff.mpr (by rw [List.mem_range]; omega))
  obtain ⟨q, hq, -⟩ := bind_eq_ok.mp hx3
  exact (mskyBody_reads hovf h0 hL hm (by omega) (hP2 _) hq).2 lat hlat l h1 h2

/-- A rank that computes ring `i` with a missing coefficient is undefined. -/
theorem kernelRings_missing {ovf : Res ℤ} {v : ℤ} (hovf : ovf = ok v) {pol : Bool} {s b : Exps} {c : Tod.Cfg} (h0 : 0 < c.lmax)
    (hL : c.lmax < 46341) (hnp : c.npsi ≤ c.lmax + 1) {o : Orders} (ho : o.sc.OK c.lmax) (fft : List ℂ → List ℂ) {eps : ℝ}
    {mine : List ℕ} {i : ℕ} (hi : i ∈ mine) {mb m l : ℕ} (hmb : mb < c.npsi) (hm : m ≤ c.lmax)
    (h1 : kfirst ovf c.lmax [Tod.ringTheta c (i : ℕ)] eps mb m 0 ≤ l) (h2 : l ≤ c.lmax)
    (hbad : ∀ p, prods pol s b l m mb ≠ ok p) : ∃ w, kernelRings ovf o fft pol s b c eps mine = ub w := by
  refine kernelRings_ub (by rw [hovf]; exact NoThrow.ok _) o fft pol s b h0 eps mine (fun T hT => ?_)
  obtain ⟨C, hC, -⟩ := bind_eq_ok.mp hT
  obtain ⟨k, hk, rfl⟩ := List.mem_iff_getElem.mp hi
  have hlen : k < (mine.map (fun i : ℕ => Tod.ringTheta c i)).length := by simpa using hk
  obtain ⟨p, hp⟩ := accumulate_reads hovf h0 hL hnp ho hC hmb hm hlen (l := l) (by
    rw [kfirst_single hovf h0 hL (by omega) hm hlen]
    have : (mine.map (fun i : ℕ => Tod.ringTheta c i)).getD k 0 = Tod.ringTheta c (mine[k] : ℕ) := by
      rw [List.getD_eq_getElem?_getD, List.getElem?_map, List.getElem?_eq_getElem hk]; rfl
    rw [this]
    exact h1) h2
  exact hbad p hp

end Verif.Num
