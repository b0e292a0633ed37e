import Verif.Fft.RSame
import Verif.Fft.Main
import Verif.Num.RTotal

/-! # C65: accuracy of the Fourier transform -/

namespace Verif.Fft
open Verif Res Finset
open Verif.Num (Near)

/-- Error of a transform of length `n`, relative to the sum of the magnitudes of its input: mixed radix, Bluestein. -/
noncomputable def fftErr (u κ : ℝ) (n : ℕ) : ℝ := max (rho u κ ^ (n + 143) - 1) (4 * n * (rho u κ ^ 674 - 1))

/-- Same tables, any scratch memory. -/
structure WSim (n : ℕ) (w w' : Work) : Prop where
  ch : w'.ch.length = n
  tab : n ≠ 1 → w'.wa = w.wa ∧ w'.fac = w.fac

structure BSim (b b' : BPlan) : Prop where
  n2 : b'.n2 = b.n2
  bk : b'.bk = b.bk
  bkf : b'.bkf = b.bkf
  akf : b'.akf.length = b.n2
  work : WSim b.n2 b.work b'.work

def PSim (n : ℕ) (p p' : Plan) : Prop :=
  p'.length = n ∧ match p.work, p'.work with
    | PlanW.pack w, PlanW.pack w' => WSim n w w'
    | PlanW.blue b, PlanW.blue b' => BSim b b'
    | _, _ => False

/-- A plan with accurate tables. -/
def PlanOkR (f : FA) (u κ : ℝ) (n : ℕ) (p : Plan) : Prop :=
  p.length = n ∧ match p.work with
    | PlanW.pack w => WorkOkR (tabErr u κ) (n + 143) n w
    | PlanW.blue b => BPlanOkR f u κ n b

section
variable {f : FA} {u κ : ℝ} (A : FAcc f u κ)
include A

theorem cfftR_sim (back : Bool) {n E : ℕ} (h1 : 1 ≤ n) (c : List ℂ) (hc : c.length = n) (w : Work) (hw : WorkOkR (tabErr u κ) E n w) :
    ∃ r, r.length = n ∧ (∀ w', WSim n w w' → ∃ w'', cfftR f back n c w' = ok (r, w'') ∧ WSim n w w'') ∧
      ∀ k < n, Near (rho u κ ^ E) (r.getD k 0) (∑ q ∈ range n, c.getD q 0 * zeta n (sg back * (k * q))) (∑ q ∈ range n, ‖c.getD q 0‖) := by
  obtain ⟨r, r1, r2, r3⟩ := cfftR_spec A back h1 c hc w hw
  refine ⟨r, r1, fun w' hw' => ?_, r3⟩
  by_cases h : n = 1
  · have e : ∀ w, cfftR f back n c w = ok (c, w) := by
      intro w; unfold cfftR; rw [if_neg (by simpa using h)]
    obtain ⟨ch, hch, _⟩ := r2 w.ch hw.ch
    rw [e] at hch
    have : r = c := (congrArg Prod.fst (Res.ok.inj hch)).symm
    rw [this]
    exact ⟨w', e w', hw'⟩
  · obtain ⟨h2, h3⟩ := hw'.tab h
    obtain ⟨ch, hch, hl⟩ := r2 w'.ch hw'.ch
    have e : ({ w with ch := w'.ch } : Work) = w' := by
      obtain ⟨a, b, c⟩ := w'
      dsimp only at h2 h3 ⊢
      rw [h2, h3]
    rw [e] at hch
    exact ⟨_, hch, hl, fun _ => ⟨rfl, rfl⟩⟩

omit A in
theorem bluesteinR_one {back : Bool} {n : ℕ} {data : List ℂ} {p : BPlan} (h : p.n2 = 1) (w : Work) :
    bluesteinR f back n data { p with work := w } = bluesteinR f back n data p >>= fun r => ok (r.1, { r.2 with work := w }) := by
  have e : ∀ b c w, cfftR f b p.n2 c w = ok (c, w) := by
    intro b c w; unfold cfftR; rw [if_neg (by simpa using h)]
  unfold bluesteinR
  dsimp only
  simp only [e, bind_assoc, ok_bind]

theorem bluesteinR_sim (back : Bool) {n : ℕ} (h1 : 1 ≤ n) (p : BPlan) (hp : BPlanOkR f u κ n p) (data : List ℂ) (hd : data.length = n) :
    ∃ r, r.length = n ∧ (∀ p', BSim p p' → ∃ p'', bluesteinR f back n data p' = ok (r, p'') ∧ BSim p p'') ∧
      ∀ k < n, Near (rho u κ ^ 674) (r.getD k 0) (∑ q ∈ range n, data.getD q 0 * zeta n (sg back * (k * q)))
        (4 * n * ∑ q ∈ range n, ‖data.getD q 0‖) := by
  obtain ⟨r, r1, r2, r3⟩ := bluesteinR_spec A back h1 p hp data hd
  refine ⟨r, r1, fun p' hp' => ?_, r3⟩
  obtain ⟨ch', akf', l1, l2, he⟩ := r2 p'.work.ch p'.akf hp'.work.ch hp'.akf
  obtain ⟨n2', bk', bkf', work', akf0⟩ := p'
  obtain ⟨e1, e2, e3, e4, e5⟩ := hp'
  dsimp only at e1 e2 e3 e4 e5 he
  subst e1 e2 e3
  by_cases h : p.n2 = 1
  · have := bluesteinR_one (f := f) (back := back) (n := n) (data := data)
      (p := { p with work := { p.work with ch := work'.ch }, akf := akf0 }) h work'
    rw [he, ok_bind] at this
    exact ⟨_, this, rfl, rfl, rfl, l2, e5⟩
  · obtain ⟨h2, h3⟩ := e5.tab h
    have e : ({ p.work with ch := work'.ch } : Work) = work' := by
      obtain ⟨a, b, c⟩ := work'
      dsimp only at h2 h3 ⊢
      rw [h2, h3]
    rw [e] at he
    exact ⟨_, he, rfl, rfl, rfl, l2, l1, fun _ => ⟨rfl, rfl⟩⟩

omit A in
theorem dft_getD (back : Bool) {n k : ℕ} (hk : k < n) (x : List ℂ) :
    ∑ q ∈ range n, x.getD q 0 * zeta n (sg back * (k * q)) = (dftList back n x).getD k 0 := by
  unfold dftList
  rw [getD_map_range _ _ hk]
  exact sum_congr rfl fun q _ => by rw [zeta_dft]

theorem execR_sim (back : Bool) {n : ℕ} (h1 : 1 ≤ n) {p : Plan} (hp : PlanOkR f u κ n p) (x : List ℂ) (hx : x.length = n) :
    ∃ r, r.length = n ∧ (∀ p', PSim n p p' → ∃ p'', p'.execR f back x = ok (r, p'') ∧ PSim n p p'') ∧
      ∀ k < n, ‖r.getD k 0 - (dftList back n x).getD k 0‖ ≤ fftErr u κ n * ∑ j ∈ range n, ‖x.getD j 0‖ := by
  obtain ⟨pl, pw⟩ := p
  obtain ⟨hl, hw⟩ := hp
  dsimp only at hl hw
  have hS : 0 ≤ ∑ j ∈ range n, ‖x.getD j 0‖ := sum_nonneg fun _ _ => norm_nonneg _
  cases pw with
  | pack w =>
    obtain ⟨r, r1, r2, r3⟩ := cfftR_sim A back h1 x hx w hw
    refine ⟨r, r1, fun p' hp' => ?_, fun k hk => ?_⟩
    · obtain ⟨pl', pw'⟩ := p'
      obtain ⟨q1, q2⟩ := hp'
      dsimp only at q1 q2
      cases pw' with
      | blue b => exact q2.elim
      | pack w' =>
        subst q1
        obtain ⟨w'', e, hs⟩ := r2 w' q2
        refine ⟨⟨pl', PlanW.pack w''⟩, ?_, rfl, hs⟩
        unfold Plan.execR
        dsimp only
        rw [e, ok_bind]
    · have := (r3 k hk).err
      rw [dft_getD back hk] at this
      exact this.trans (mul_le_mul_of_nonneg_right (le_max_left _ _) hS)
  | blue b =>
    obtain ⟨r, r1, r2, r3⟩ := bluesteinR_sim A back h1 b hw x hx
    refine ⟨r, r1, fun p' hp' => ?_, fun k hk => ?_⟩
    · obtain ⟨pl', pw'⟩ := p'
      obtain ⟨q1, q2⟩ := hp'
      dsimp only at q1 q2
      cases pw' with
      | pack b => exact q2.elim
      | blue b' =>
        subst q1
        obtain ⟨b'', e, hs⟩ := r2 b' q2
        refine ⟨⟨pl', PlanW.blue b''⟩, ?_, rfl, hs⟩
        unfold Plan.execR
        dsimp only
        rw [e, ok_bind]
    · have := (r3 k hk).err
      rw [dft_getD back hk, ← mul_assoc, mul_comm (_ - 1)] at this
      exact this.trans (mul_le_mul_of_nonneg_right (le_max_right _ _) hS)

omit A in
theorem runsR_sim {n : ℕ} {p : Plan} {F : Bool → List ℂ → List ℂ}
    (h : ∀ back x, x.length = n → ∀ p', PSim n p p' → ∃ p'', p'.execR f back x = ok (F back x, p'') ∧ PSim n p p'')
    (qs : List (Bool × List ℂ)) : ∀ p', PSim n p p' → (∀ q ∈ qs, q.2.length = n) → p'.runsR f qs = ok (qs.map fun q => F q.1 q.2) := by
  induction qs with
  | nil => intro p' _ _; rfl
  | cons q qs ih =>
    intro p' hp' hq
    obtain ⟨p'', he, hs⟩ := h q.1 q.2 (hq q (by simp)) p' hp'
    unfold Plan.runsR
    rw [he, ok_bind]
    dsimp only
    rw [ih p'' hs fun q' hq' => hq q' (by simp [hq']), ok_bind]
    rfl

theorem cfftiR_spec' (n : ℕ) (h1 : 1 ≤ n) (hn : n < 3 ^ 14) (g : ℂ) : ∃ w, cfftiR f n g = ok w ∧ WorkOkR (tabErr u κ) (n + 143) n w := by
  by_cases h : n = 1
  · refine ⟨⟨List.replicate n g, List.replicate n g, []⟩, ?_, by simp, fun h' => absurd h h', by simp [facExp]⟩
    unfold cfftiR; rw [if_neg (by simpa using h)]
  · exact cfftiR_spec A n _ h1 hn (facExp_le n (by omega) hn) g

theorem cfftiR_wsim {n : ℕ} (h1 : 1 ≤ n) (hn : n < 3 ^ 14) {g g' : ℂ} {w w' : Work} (h : cfftiR f n g = ok w) (h' : cfftiR f n g' = ok w')
    {ch : List ℂ} (hl : ch.length = n) : WSim n w { w' with ch := ch } := by
  refine ⟨hl, fun hne => ?_⟩
  obtain ⟨e1, e2⟩ := cfftiR_same A (by omega) hn h h'
  exact ⟨e1.symm, e2.symm⟩

theorem makePlanR_sim (useBlue : Bool) {n : ℕ} (h1 : 1 ≤ n) (hn : n < 3 ^ 14) (hb : useBlue = true → 4 * n ≤ 3 ^ 14) :
    ∃ p0, PlanOkR f u κ n p0 ∧ (match p0.work with | PlanW.pack _ => useBlue = false | PlanW.blue _ => useBlue = true) ∧
      ∀ g, ∃ p, makePlanR f useBlue n g = ok p ∧ PSim n p0 p := by
  cases useBlue with
  | false =>
    obtain ⟨w0, e0, k0⟩ := cfftiR_spec' A n h1 hn 0
    refine ⟨⟨n, PlanW.pack w0⟩, ⟨rfl, k0⟩, rfl, fun g => ?_⟩
    obtain ⟨w, e, k⟩ := cfftiR_spec' A n h1 hn g
    refine ⟨⟨n, PlanW.pack w⟩, ?_, rfl, cfftiR_wsim A h1 hn e0 e k.ch⟩
    unfold makePlanR
    rw [if_neg (by simp), e, ok_bind]
  | true =>
    obtain ⟨b0, e0, k0⟩ := bluesteinIR_spec A n h1 (hb rfl) 0
    refine ⟨⟨n, PlanW.blue b0⟩, ⟨rfl, k0⟩, rfl, fun g => ?_⟩
    obtain ⟨b, e, k⟩ := bluesteinIR_spec A n h1 (hb rfl) g
    refine ⟨⟨n, PlanW.blue b⟩, ?_, rfl, ?_⟩
    · unfold makePlanR
      rw [if_pos rfl, e, ok_bind]
    show BSim b0 b
    have hbn := hb rfl
    unfold bluesteinIR at e0 e
    obtain ⟨n2, hn2, e⟩ := bind_eq_ok.mp e
    rw [hn2, ok_bind] at e0
    obtain ⟨bk, hbk, e⟩ := bind_eq_ok.mp e
    obtain ⟨bk0, hbk0, e0⟩ := bind_eq_ok.mp e0
    obtain ⟨bkf, hbkf, e⟩ := bind_eq_ok.mp e
    obtain ⟨bkf0, hbkf0, e0⟩ := bind_eq_ok.mp e0
    obtain ⟨w, hw, e⟩ := bind_eq_ok.mp e
    obtain ⟨w0, hw0, e0⟩ := bind_eq_ok.mp e0
    obtain ⟨r, hr, e⟩ := bind_eq_ok.mp e
    obtain ⟨r0, hr0, e0⟩ := bind_eq_ok.mp e0
    cases e; cases e0
    have q1 := k.n2
    have q2 := k.n2le
    dsimp only at q1 q2
    obtain ⟨x, hx, x1, _⟩ := initBkR_spec A n h1 (List.replicate n g) (by simp)
    rw [hbk] at hx; cases hx
    obtain rfl : bk = bk0 := initBkR_same (by simp) x1.le hbk hbk0
    have hb2 : ∀ m < n, ‖bk.getD m 0 - zeta (2 * n) ((m : ℤ) ^ 2)‖ ≤ tabErr u κ := k.bk
    obtain ⟨y, hy, y1, _⟩ := initBkfR_spec A n n2 h1 q1 bk (List.replicate n2 g) x1 hb2 (by simp)
    rw [hbkf] at hy; cases hy
    obtain rfl : bkf = bkf0 := initBkfR_same q1 h1 (by simp) y1.le hbkf hbkf0
    obtain ⟨v, hv, v1⟩ := cfftiR_spec' A n2 (by omega) (by omega) 0
    rw [hw0] at hv; cases hv
    obtain ⟨v', hv', v1'⟩ := cfftiR_spec' A n2 (by omega) (by omega) g
    rw [hw] at hv'; cases hv'
    obtain ⟨s, s1, s2, _⟩ := cfftR_sim A false (by omega) bkf y1 w0 v1
    obtain ⟨w1, t1, t2⟩ := s2 w0 ⟨v1.ch, fun _ => ⟨rfl, rfl⟩⟩
    obtain ⟨w2, t3, t4⟩ := s2 w (by
      have := cfftiR_wsim A (by omega) (by omega) hw0 hw (ch := w.ch) v1'.ch
      exact this)
    rw [hr0] at t1; rw [hr] at t3
    cases t1; cases t3
    exact ⟨rfl, rfl, rfl, by simp, t4.ch, fun hne => ⟨(t4.tab hne).1.trans (t2.tab hne).1.symm, (t4.tab hne).2.trans (t2.tab hne).2.symm⟩⟩

/-- The library's transform of a given length is a function of its argument alone. -/
theorem runs_func (useBlue : Bool) {n : ℕ} (h1 : 1 ≤ n) (hn : n < 3 ^ 14) (hb : useBlue = true → 4 * n ≤ 3 ^ 14) :
    ∃ F : Bool → List ℂ → List ℂ,
      (∀ g, ∃ p, makePlanR f useBlue n g = ok p ∧
        ∀ qs : List (Bool × List ℂ), (∀ q ∈ qs, q.2.length = n) → p.runsR f qs = ok (qs.map fun q => F q.1 q.2)) ∧
      ∀ back x, x.length = n → (F back x).length = n ∧
        ∀ k < n, ‖(F back x).getD k 0 - (dftList back n x).getD k 0‖ ≤ fftErr u κ n * ∑ j ∈ range n, ‖x.getD j 0‖ := by
  obtain ⟨p0, hok, _, hp⟩ := makePlanR_sim A useBlue h1 hn hb
  have H := fun (back : Bool) (x : List ℂ) (hx : x.length = n) => execR_sim A back h1 hok x hx
  choose! F F1 F2 F3 using H
  refine ⟨F, fun g => ?_, fun back x hx => ⟨F1 back x hx, F3 back x hx⟩⟩
  obtain ⟨p, he, hs⟩ := hp g
  exact ⟨p, he, fun qs hq => runsR_sim F2 qs p hs hq⟩

/-- C65.  Floating-point arithmetic with relative error `u` per operation, libm and constants accurate to `κ`; any length up to `3^14/4`, either
algorithm.  Plans can be created whatever the allocated memory contains; every call of `forward` or `backward`, after any history of calls on any
plan of that length, stays inside its buffers and returns a function of its argument alone; every element of the result differs from the discrete
Fourier transform by at most `fftErr` times the sum of the magnitudes of the input. -/
theorem C65_fft (cost : ℕ → ℕ → Bool) {n : ℕ} (h1 : 1 ≤ n) (hn : 4 * n ≤ 3 ^ 14) :
    ∃ F : Bool → List ℂ → List ℂ,
      (∀ g, ∃ p, makeComplexPlanR f cost n g = ok p ∧
        ∀ qs : List (Bool × List ℂ), (∀ q ∈ qs, q.2.length = n) → p.runsR f qs = ok (qs.map fun q => F q.1 q.2)) ∧
      ∀ back x, x.length = n → (F back x).length = n ∧
        ∀ k < n, ‖(F back x).getD k 0 - (dftList back n x).getD k 0‖ ≤ fftErr u κ n * ∑ j ∈ range n, ‖x.getD j 0‖ := by
  obtain ⟨F, h, h'⟩ := runs_func A (cost n ((Nat.primeFactorsList n).sum)) h1 (by omega) (fun _ => hn)
  refine ⟨F, fun g => ?_, h'⟩
  unfold makeComplexPlanR
  rw [C41_prime_factor_sum n h1, ok_bind]
  exact h g

/-- Mixed radix alone: up to `n < 3^14`, with the smaller bound. -/
theorem C65_mixed_radix {n : ℕ} (h1 : 1 ≤ n) (hn : n < 3 ^ 14) :
    ∃ F : Bool → List ℂ → List ℂ,
      (∀ g, ∃ p, makePlanR f false n g = ok p ∧
        ∀ qs : List (Bool × List ℂ), (∀ q ∈ qs, q.2.length = n) → p.runsR f qs = ok (qs.map fun q => F q.1 q.2)) ∧
      ∀ back x, x.length = n → (F back x).length = n ∧
        ∀ k < n, ‖(F back x).getD k 0 - (dftList back n x).getD k 0‖ ≤ (rho u κ ^ (n + 143) - 1) * ∑ j ∈ range n, ‖x.getD j 0‖ := by
  obtain ⟨p0, hok, hk, hp⟩ := makePlanR_sim A false h1 hn (by simp)
  have H := fun (back : Bool) (x : List ℂ) (hx : x.length = n) => execR_sim A back h1 hok x hx
  choose! F F1 F2 F3 using H
  refine ⟨F, fun g => ?_, fun back x hx => ⟨F1 back x hx, fun k hk' => ?_⟩⟩
  · obtain ⟨p, he, hs⟩ := hp g
    exact ⟨p, he, fun qs hq => runsR_sim F2 qs p hs hq⟩
  · obtain ⟨pl, pw⟩ := p0
    cases pw with
    | blue b => exact absurd hk (by simp)
    | pack w =>
      obtain ⟨hl, hw⟩ := hok
      dsimp only at hl hw
      obtain ⟨r, r1, r2, r3⟩ := cfftR_sim A back h1 x hx w hw
      obtain ⟨w'', e, _⟩ := r2 w ⟨hw.ch, fun _ => ⟨rfl, rfl⟩⟩
      obtain ⟨p'', e', _⟩ := F2 back x hx ⟨pl, PlanW.pack w⟩ ⟨hl, hw.ch, fun _ => ⟨rfl, rfl⟩⟩
      unfold Plan.execR at e'
      dsimp only at e'
      rw [hl, e, ok_bind] at e'
      have : r = F back x := congrArg Prod.fst (Res.ok.inj e')
      rw [← this, ← dft_getD back hk']
      exact (r3 k hk').err

end

/-- Binary64 arithmetic, libm and constants accurate to `2^-52`: the error grows at most linearly with the length. -/
theorem fftErr_binary64 {n : ℕ} (h1 : 1 ≤ n) (hn : 4 * n ≤ 3 ^ 14) : fftErr (1 / 2 ^ 53) (1 / 2 ^ 52) n ≤ 21 / 10 ^ 12 * n := by
  have hr : rho (1 / 2 ^ 53) (1 / 2 ^ 52) ≤ 1 + 62 / 2 ^ 53 := by unfold rho tabErr; norm_num
  have h0 : 0 ≤ rho (1 / 2 ^ 53) (1 / 2 ^ 52) := by unfold rho tabErr; norm_num
  have hn' : (1 : ℝ) ≤ n := by exact_mod_cast h1
  have hn2 : (n : ℝ) ≤ 1195742 := by
    have : n ≤ 1195742 := by norm_num at hn; omega
    exact_mod_cast this
  unfold fftErr
  refine max_le ?_ ?_
  · have a := pow_le_pow_left₀ h0 hr (n + 143)
    have b := Num.one_add_pow_le (x := 62 / 2 ^ 53) (n := n + 143) (by positivity) (by
      push_cast
      calc ((n : ℝ) + 143) * (62 / 2 ^ 53) ≤ (1195742 + 143) * (62 / 2 ^ 53) := mul_le_mul_of_nonneg_right (by linarith) (by positivity)
        _ ≤ 1 / 11 := by norm_num)
    push_cast at b
    have c : 11 / 10 * (((n : ℝ) + 143) * (62 / 2 ^ 53)) ≤ 11 / 10 * ((144 * n) * (62 / 2 ^ 53)) :=
      mul_le_mul_of_nonneg_left (mul_le_mul_of_nonneg_right (by linarith) (by positivity)) (by positivity)
    have d : 11 / 10 * ((144 * (n : ℝ)) * (62 / 2 ^ 53)) = (11 / 10 * (144 * (62 / 2 ^ 53))) * n := by ring
    have e : (11 / 10 * (144 * (62 / 2 ^ 53)) : ℝ) ≤ 21 / 10 ^ 12 := by norm_num
    have g := mul_le_mul_of_nonneg_right e (show (0 : ℝ) ≤ n by linarith)
    linarith
  · have a := pow_le_pow_left₀ h0 hr 674
    have b := Num.one_add_pow_le (x := 62 / 2 ^ 53) (n := 674) (by positivity) (by norm_num)
    have c : rho (1 / 2 ^ 53) (1 / 2 ^ 52) ^ 674 - 1 ≤ 11 / 10 * ((674 : ℕ) * (62 / 2 ^ 53)) := sub_le_iff_le_add'.mpr (a.trans b)
    have e : (4 * (11 / 10 * ((674 : ℕ) * (62 / 2 ^ 53))) : ℝ) ≤ 21 / 10 ^ 12 := by norm_num
    calc _ ≤ 4 * (n : ℝ) * (11 / 10 * ((674 : ℕ) * (62 / 2 ^ 53))) := mul_le_mul_of_nonneg_left c (by positivity)
      _ = (4 * (11 / 10 * ((674 : ℕ) * (62 / 2 ^ 53)))) * n := by ring
      _ ≤ _ := mul_le_mul_of_nonneg_right e (by positivity)

/-- `C65_fft` for binary64. -/
theorem C65_binary64 {f : FA} (A : FAcc f (1 / 2 ^ 53) (1 / 2 ^ 52)) (cost : ℕ → ℕ → Bool) {n : ℕ} (h1 : 1 ≤ n) (hn : 4 * n ≤ 3 ^ 14) :
    ∃ F : Bool → List ℂ → List ℂ,
      (∀ g, ∃ p, makeComplexPlanR f cost n g = ok p ∧
        ∀ qs : List (Bool × List ℂ), (∀ q ∈ qs, q.2.length = n) → p.runsR f qs = ok (qs.map fun q => F q.1 q.2)) ∧
      ∀ back x, x.length = n → (F back x).length = n ∧
        ∀ k < n, ‖(F back x).getD k 0 - (dftList back n x).getD k 0‖ ≤ 21 / 10 ^ 12 * n * ∑ j ∈ range n, ‖x.getD j 0‖ := by
  obtain ⟨F, a, b⟩ := C65_fft A cost h1 hn
  refine ⟨F, a, fun back x hx => ⟨(b back x hx).1, fun k hk => ((b back x hx).2 k hk).trans ?_⟩⟩
  exact mul_le_mul_of_nonneg_right (fftErr_binary64 h1 hn) (sum_nonneg fun _ _ => norm_nonneg _)

/-! ## Witness -/

/-- Correctly rounded arithmetic, libm and constants. -/
noncomputable def roundedFA : FA where
  rb := Double.dbl
  cosF := fun x => Double.dbl (Real.cos x)
  sinF := fun x => Double.dbl (Real.sin x)
  s3 := Double.dbl (√3 / 2)
  c51 := Double.dbl (Real.cos (2 * Real.pi / 5))
  s51 := Double.dbl (Real.sin (2 * Real.pi / 5))
  c52 := Double.dbl (Real.cos (4 * Real.pi / 5))
  s52 := Double.dbl (Real.sin (4 * Real.pi / 5))
  twopi := Double.dbl (2 * Real.pi)
  pi := Double.dbl Real.pi

theorem roundedFA_acc : FAcc roundedFA (1 / 2 ^ 53) (1 / 2 ^ 52) := by
  have h : ∀ x : ℝ, |Double.dbl x - x| ≤ 1 / 2 ^ 53 * |x| := fun x => by
    have := Double.dbl_rel x
    rwa [div_eq_mul_one_div, mul_comm] at this
  have h1 : ∀ x : ℝ, |x| ≤ 1 → |Double.dbl x - x| ≤ 1 / 2 ^ 52 := fun x hx => (Num.dbl_unit hx).trans (by norm_num)
  have h3 : |√3 / 2| ≤ 1 := by
    rw [abs_of_nonneg (by positivity), div_le_one (by norm_num), Real.sqrt_le_left (by norm_num)]; norm_num
  refine ⟨by positivity, by positivity, h, fun x => h1 _ (Real.abs_cos_le_one _), fun x => h1 _ (Real.abs_sin_le_one _), h1 _ h3,
    h1 _ (Real.abs_cos_le_one _), h1 _ (Real.abs_sin_le_one _), h1 _ (Real.abs_cos_le_one _), h1 _ (Real.abs_sin_le_one _), ?_, ?_⟩
  · have := h (2 * Real.pi)
    rwa [abs_of_nonneg (show (0 : ℝ) ≤ 2 * Real.pi by positivity)] at this
  · have := h Real.pi
    rwa [abs_of_nonneg (show (0 : ℝ) ≤ Real.pi by positivity)] at this

/-- Length 77, either algorithm, two calls on the same plan. -/
example (b : Bool) : ∃ p y z, makeComplexPlanR roundedFA (fun _ _ => b) 77 5 = ok p ∧
    p.runsR roundedFA [(false, List.replicate 77 1), (true, List.replicate 77 1)] = ok [y, z] ∧
    ‖y.getD 3 0 - (dftList false 77 (List.replicate 77 1)).getD 3 0‖ ≤ 13 / 10 ^ 8 := by
  obtain ⟨F, h, h'⟩ := C65_binary64 roundedFA_acc (fun _ _ => b) (n := 77) (by norm_num) (by norm_num)
  obtain ⟨p, hp, hr⟩ := h 5
  refine ⟨p, _, _, hp, hr _ (by simp), ((h' false (List.replicate 77 1) (by simp)).2 3 (by norm_num)).trans ?_⟩
  have : ∑ j ∈ range 77, ‖(List.replicate 77 (1 : ℂ)).getD j 0‖ = 77 := by
    rw [sum_congr rfl fun j hj => by
      have := mem_range.mp hj
      show ‖(List.replicate 77 (1 : ℂ)).getD j 0‖ = 1
      rw [List.getD, List.getElem?_replicate, if_pos this, Option.getD_some, norm_one]]
    simp
  rw [this]
  norm_num

end Verif.Fft
