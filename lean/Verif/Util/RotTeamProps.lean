import Verif.Util.RotTeamProof
import Verif.Util.RotPol

/-!
# `rotate_alm` with real threads (C78): the theorems
-/

namespace Verif.RotPar

open Verif Res Verif.Risbo Verif.Num Verif.Harm Verif.PowSpec Verif.Share Verif.Rot
open Verif.HalfPi (ND)
open Matrix (mulVec)
open scoped Matrix

/-- C78: the parallel region of `rotate_alm` for one degree, with any number `n > 0` of threads, one (`cs = [0]`) or three (`cs = [0,1,2]`)
components, whatever the arithmetic (no law is assumed, so it may round): no interleaving of the loads and stores has a data race or an access out
of bounds; every execution can be completed and none runs forever; and each completed one leaves in `almtmp[m]`, `m ≤ l`, of each component the
old value plus the contributions of `mm = 1, …, l` added in this order, and everything else unchanged. -/
theorem C78_rotate_region {V : Type} [Add V] [Sub V] [Mul V] [Neg V] {r : Inputs V} {cs : List ℕ} {A : ℕ → ℕ → V × V} {X : ℕ → V × V}
    {D : ℕ → ℕ → V} (h : InBounds r cs A X D) {n : ℕ} (hn : 0 < n) (M : RCell → V) (s : Fin n → Unit) :
    (∀ c, Par.Reach [(rotLoop r cs n).phase (teamOf n)] M s c → ¬ Par.Race c ∧ ¬ Par.Broken c) ∧
    (∃ M' s', Par.Ends [(rotLoop r cs n).phase (teamOf n)] M s M' s') ∧
    (∃ N, ∀ k c, Par.StepsN k (Par.start ((rotLoop r cs n).phase (teamOf n)) M s) c → k ≤ N) ∧
    (∀ M' s', Par.Ends [(rotLoop r cs n).phase (teamOf n)] M s M' s' → ∀ c m im,
      (c ∈ cs ∧ m ≤ r.l → M' (c, m, im) = total A X D r.l c m im (M (c, m, im)) r.l) ∧ (¬ (c ∈ cs ∧ m ≤ r.l) → M' (c, m, im) = M (c, m, im))) := by
  have hall : ∀ lp ∈ [rotLoop r cs n], Par.Separate noX (fun _ : Unit => True) lp := by
    intro lp hl
    rw [List.mem_singleton.mp hl]
    exact rot_separate h n
  have hd : Par.Deals [rotLoop r cs n] [teamOf n] := .cons (team_dealt n) .nil
  exact ⟨fun c hc => Par.team_safe hd hall (fun _ => trivial) hc, Par.team_completes hd hall M (fun _ => trivial),
    Par.team_bound hd hall (P := (rotLoop r cs n).phase (teamOf n)) (by simp [Par.phases]) M s, fun M' s' he c m im => rot_ends h hn he (c, m, im)⟩

/-- C78: so the numbers do not depend on how many threads there are. -/
theorem C78_rotate_threads {V : Type} [Add V] [Sub V] [Mul V] [Neg V] {r : Inputs V} {cs : List ℕ} {A : ℕ → ℕ → V × V} {X : ℕ → V × V}
    {D : ℕ → ℕ → V} (h : InBounds r cs A X D) {n n' : ℕ} (hn : 0 < n) (hn' : 0 < n') {M M1 M2 : RCell → V} {s s1 : Fin n → Unit} {t t1 : Fin n' → Unit}
    (h1 : Par.Ends [(rotLoop r cs n).phase (teamOf n)] M s M1 s1) (h2 : Par.Ends [(rotLoop r cs n').phase (teamOf n')] M t M2 t1) : M1 = M2 := by
  funext e
  have a := rot_ends h hn h1 e
  have b := rot_ends h hn' h2 e
  by_cases hc : e.1 ∈ cs ∧ e.2.1 ≤ r.l
  · rw [a.1 hc, b.1 hc]
  · rw [a.2 hc, b.2 hc]

/-- C78: the parallel loop of the Risbo recursion, with the rows dealt to any number of threads in any way, whatever the arithmetic: no data race or
access out of bounds, it always ends, and each completed execution leaves in `dd[k][i]`, `1 ≤ k ≤ n`, `i ≤ j`, the value computed from the rows `k`
and `k-1` of `d`, and everything else unchanged. -/
theorem C78_risbo_region {V : Type} [Add V] [Sub V] [Mul V] [Neg V] {r : RisPar.Inputs V} {n j : ℕ} {s : ℕ → V} (h : RisPar.InBounds r n j s)
    {N : ℕ} {its : Fin N → List ℕ} (hd : Par.Dealt its (List.range' 1 n)) (M : RisPar.Cell → V) (u : Fin N → Unit) :
    (∀ c, Par.Reach [(RisPar.rowLoop r n j).phase its] M u c → ¬ Par.Race c ∧ ¬ Par.Broken c) ∧
    (∃ M' u', Par.Ends [(RisPar.rowLoop r n j).phase its] M u M' u') ∧
    (∃ B, ∀ k c, Par.StepsN k (Par.start ((RisPar.rowLoop r n j).phase its) M u) c → k ≤ B) ∧
    (∀ M' u', Par.Ends [(RisPar.rowLoop r n j).phase its] M u M' u' → ∀ w k i, M' (w, k, i) =
      if w = true ∧ (1 ≤ k ∧ k ≤ n) ∧ i ≤ j then RisPar.value r.p r.q r.xj s j (fun a b => M (false, a, b)) k i else M (w, k, i)) := by
  have hall : ∀ lp ∈ [RisPar.rowLoop r n j], Par.Separate RisPar.noX (fun _ : Unit => True) lp := by
    intro lp hl
    rw [List.mem_singleton.mp hl]
    exact RisPar.row_separate h
  have hds : Par.Deals [RisPar.rowLoop r n j] [its] := .cons hd .nil
  exact ⟨fun c hc => Par.team_safe hds hall (fun _ => trivial) hc, Par.team_completes hds hall M (fun _ => trivial),
    Par.team_bound hds hall (P := (RisPar.rowLoop r n j).phase its) (by simp [Par.phases]) M u, fun M' u' he w k i => RisPar.row_ends h hd he w k i⟩

/-- C78: whole calls of `rotate_alm`, in exact arithmetic, with any number of threads in each region, any dealing of rows and any interleaving of
loads and stores, starting from tables with any contents: `lmax ≠ mmax` always throws; otherwise the call has an outcome, and every outcome is a
success with the rotated coefficients - there is no race, failure or endless run. -/
theorem C78_rotate (alm : Alm ℂ) (psi theta phi : ℝ) (hwf : alm.WF) :
    (alm.lmax ≠ alm.mmax → ∀ r, rotateP alm psi theta phi r ↔ r = Res.throw "rotate_alm: lmax must be equal to mmax") ∧
    (alm.lmax = alm.mmax → (∃ r, rotateP alm psi theta phi r) ∧ ∀ r, rotateP alm psi theta phi r →
      ∃ b, r = ok b ∧ b.WF ∧ b.lmax = alm.lmax ∧ b.mmax = alm.mmax ∧
        ∀ l m : ℕ, m ≤ l → (l : ℤ) ≤ alm.lmax → b.get l m = ok (rotated (coef alm) psi theta phi l m)) := by
  constructor
  · intro hne r
    unfold rotateP
    rw [if_neg hne]
    exact Iff.rfl
  · intro he
    have h := rotate_all hwf he psi theta phi
    refine ⟨h.1, fun r hr => ?_⟩
    obtain ⟨b, rfl, x, hx⟩ := h.2 r hr
    obtain ⟨b', hb', p⟩ := (C47_rotate x.junk x.junk' x.sR x.sT x.nthr alm psi theta phi hwf x.hR x.hT).2 he
    have : rotateAlm x.junk x.junk' x.sR x.sT alm psi theta phi = ok b := hx
    rw [hb'] at this
    injection this with this
    subst this
    exact ⟨b', rfl, p⟩

/-- C78: what it means for the field on the sphere: every outcome is the field moved by the rotation. -/
theorem C78_field (alm : Alm ℂ) (hwf : alm.WF) (h : alm.lmax = alm.mmax) (hreal : RealField (coef alm) alm.lmax) (psi theta phi : ℝ)
    {r : Res (Alm ℂ)} (hr : rotateP alm psi theta phi r) :
    ∃ b, r = ok b ∧ RealField (coef b) b.lmax ∧ ∀ n, IsUnit3 n → sky b ((Rz phi * Ry theta * Rz psi) *ᵥ n) = sky alm n := by
  obtain ⟨b, rfl, x, hx⟩ := (rotate_all hwf h psi theta phi).2 r hr
  obtain ⟨b', hb', p, q⟩ := C71_field x alm hwf h hreal psi theta phi
  rw [hx] at hb'
  injection hb' with hb'
  subst hb'
  exact ⟨b, rfl, p, fun n hn => (q n hn).2⟩

/-- C78: three components: a mismatch of the limits always throws; otherwise there is an outcome, and every outcome is a success in which each
component has the rotated coefficients. -/
theorem C78_rotate3 (aT aG aC : Alm ℂ) (psi theta phi : ℝ) (wT : aT.WF) (wG : aG.WF) (wC : aC.WF) :
    (¬ (aT.lmax = aT.mmax ∧ conformable aG aT ∧ conformable aC aT) → ∀ r, rotate3P aT aG aC psi theta phi r → r.IsThrow) ∧
    (aT.lmax = aT.mmax → conformable aG aT → conformable aC aT → (∃ r, rotate3P aT aG aC psi theta phi r) ∧
      ∀ r, rotate3P aT aG aC psi theta phi r → ∃ bT bG bC, r = ok (bT, bG, bC) ∧ bT.lmax = aT.lmax ∧ bG.lmax = aT.lmax ∧ bC.lmax = aT.lmax ∧
        ∀ l m : ℕ, m ≤ l → (l : ℤ) ≤ aT.lmax → bT.get l m = ok (rotated (coef aT) psi theta phi l m) ∧
          bG.get l m = ok (rotated (coef aG) psi theta phi l m) ∧ bC.get l m = ok (rotated (coef aC) psi theta phi l m)) := by
  constructor
  · intro hn r hr
    unfold rotate3P at hr
    by_cases h1 : aT.lmax = aT.mmax
    · have h2 : ¬ (conformable aG aT ∧ conformable aC aT) := fun h => hn ⟨h1, h⟩
      rw [if_pos h1, if_neg h2] at hr
      rw [show r = _ from hr]
      exact trivial
    · rw [if_neg h1] at hr
      rw [show r = _ from hr]
      exact trivial
  · intro hlm hG hC
    have h := rotate3_all wT wG wC hlm hG hC psi theta phi
    refine ⟨h.1, fun r hr => ?_⟩
    obtain ⟨b, rfl, x, hx⟩ := h.2 r hr
    obtain ⟨bT, bG, bC, h3, xT, xG, xC⟩ := (C71_three x aT aG aC psi theta phi).2 wT wG wC hlm hG hC
    rw [hx] at h3
    injection h3 with h3
    subst h3
    obtain ⟨T', yT, -, lT, -, vT⟩ := (C47_rotate x.junk x.junk' x.sR x.sT x.nthr aT psi theta phi wT x.hR x.hT).2 hlm
    obtain ⟨G', yG, -, lG, -, vG⟩ := (C47_rotate x.junk x.junk' x.sR x.sT x.nthr aG psi theta phi wG x.hR x.hT).2 (by rw [hG.1, hG.2, hlm])
    obtain ⟨C', yC, -, lC, -, vC⟩ := (C47_rotate x.junk x.junk' x.sR x.sT x.nthr aC psi theta phi wC x.hR x.hT).2 (by rw [hC.1, hC.2, hlm])
    have zT : T' = bT := by have := yT.symm.trans xT; injection this
    have zG : G' = bG := by have := yG.symm.trans xG; injection this
    have zC : C' = bC := by have := yC.symm.trans xC; injection this
    subst zT; subst zG; subst zC
    refine ⟨T', G', C', rfl, lT, lG.trans hG.1, lC.trans hC.1, fun l m hm hl => ⟨vT l m hm hl, vG l m hm ?_, vC l m hm ?_⟩⟩
    · rw [hG.1]; exact hl
    · rw [hC.1]; exact hl

/-- `lmax + 1` calls of `wigner_d_risbo_openmp::recurse` at most: all outcomes of `n` calls after construction. -/
noncomputable def callsP (lmax : ℕ) (θ : ℝ) : ℕ → ND Rec
  | 0 => ND.any (fun junk : (ℕ → ℕ → ℝ) × (ℕ → ℕ → ℝ) => Rec.new lmax θ junk.1 junk.2)
  | n + 1 => callsP lmax θ n >>= recurseP

theorem callsP_all (lmax : ℕ) (θ : ℝ) {n : ℕ} (hn : n ≤ lmax) : ND.All (callsP lmax θ (n + 1)) (Good lmax θ n) := by
  induction n with
  | zero =>
    unfold callsP callsP
    refine ND.All.bind (ND.All.any (Q := fun r => ∃ junk junk', r = Rec.new lmax θ junk junk') (fun b => ⟨b.1, b.2, rfl⟩)) ?_
    rintro r ⟨junk, junk', rfl⟩
    exact all_imp (recurse_first lmax θ junk junk') (fun a ha => ha.2)
  | succ n ih =>
    unfold callsP
    exact ND.All.bind (ih (by omega)) (fun r hr => all_imp (recurse_all hr hn) (fun a ha => ha.2))

/-- C78: after `n + 1` calls of `recurse` of the parallel class, whatever the threads do, the table is the Wigner matrix of degree `n`. -/
theorem C78_omp_table (lmax : ℕ) (θ : ℝ) {n : ℕ} (hn : n ≤ lmax) : (∃ r, callsP lmax θ (n + 1) r) ∧ ∀ r, callsP lmax θ (n + 1) r →
    ∃ x, r = ok x ∧ ∀ k i : ℕ, k ≤ n → i ≤ 2 * n → x.d.get k i = ok (wignerD n ((n : ℤ) - k) ((n : ℤ) - i) θ) := by
  have h := callsP_all lmax θ hn
  refine ⟨h.1, fun r hr => ?_⟩
  obtain ⟨x, rfl, hg⟩ := h.2 r hr
  exact ⟨x, rfl, fun k i hk hi => by rw [A2.get_ok (by rw [hg.h1]; omega) (by rw [hg.h2]; omega), hg.rows k hk i hi, W_wigner θ (by omega) hi]⟩

/-! ## The hypotheses are met by concrete cases -/

/-- Degree 2, two components, integers for doubles. -/
def exInputs : Inputs ℤ where
  a c mm := ok (mm + c, 2 * mm)
  x mm := ok (3 + mm, 1)
  d k i := ok (5 * k + i)
  l := 2
  size := 3

theorem ex_bounds : InBounds exInputs [0, 1] (fun c mm => ((mm : ℤ) + c, 2 * mm)) (fun mm => (3 + (mm : ℤ), 1)) (fun k i => 5 * (k : ℤ) + i) :=
  ⟨by decide, fun _ _ _ _ _ => rfl, fun _ _ _ => rfl, fun _ _ _ _ => rfl, by decide⟩

/-- Five threads for three entries: whatever the interleaving, entry 1 of component 1 ends with the same integer. -/
example {M' : RCell → ℤ} {s s' : Fin 5 → Unit} (he : Par.Ends [(rotLoop exInputs [0, 1] 5).phase (teamOf 5)] (fun _ => 7) s M' s') :
    M' (1, 1, false) = total (fun c mm => ((mm : ℤ) + c, 2 * mm)) (fun mm => (3 + (mm : ℤ), 1)) (fun k i => 5 * (k : ℤ) + i) 2 1 1 false 7 2 :=
  ((C78_rotate_region ex_bounds (by decide) _ s).2.2.2 M' s' he 1 1 false).1 (by decide)

example : total (fun c mm => ((mm : ℤ) + c, 2 * mm)) (fun mm => (3 + (mm : ℤ), 1)) (fun k i => 5 * (k : ℤ) + i) 2 1 1 false 7 2 = 17 := by decide

/-- Degree 2, half step 3, integers for doubles. -/
def exRis : RisPar.Inputs ℤ := ⟨3, 5, 3, 5, 2, 3, 1, [0, 1, 2, 3, 4]⟩

theorem exRis_bounds : RisPar.InBounds exRis 2 3 (fun m => (m : ℤ)) :=
  ⟨by decide, by decide, by decide, by decide, by decide, by decide, fun m hm => by
    have : m = 0 ∨ m = 1 ∨ m = 2 ∨ m = 3 := by omega
    rcases this with rfl | rfl | rfl | rfl <;> rfl⟩

example (M : RisPar.Cell → ℤ) (u : Fin 2 → Unit) : ∃ M' u',
    Par.Ends [(RisPar.rowLoop exRis 2 3).phase (fun t : Fin 2 => [2 - t.1])] M u M' u' :=
  (C78_risbo_region exRis_bounds (by show List.Perm _ _; decide) M u).2.1

/-- A map with `lmax = mmax = 1`: there is an outcome, and it is the rotated map. -/
example : ∃ b, rotateP ⟨1, 1, [1, 2, Complex.I]⟩ 0 (Real.pi / 2) 0 (ok b) := by
  have h := (C78_rotate ⟨1, 1, [1, 2, Complex.I]⟩ 0 (Real.pi / 2) 0 (by unfold Alm.WF; decide)).2 rfl
  obtain ⟨r, hr⟩ := h.1
  obtain ⟨b, rfl, -⟩ := h.2 r hr
  exact ⟨b, hr⟩

end Verif.RotPar
