import Verif.Par.AnnRegion
import Verif.Num.KernelProof

/-!
# The region of `conviqt_hemiscm`: footprints and effects
-/

namespace Verif.Par
open Verif Res

/-- What iteration `msky` of the loop for `mbeam` may touch: the elements with first index `lmax ± msky` and second index `mbeam`. -/
def mskyCells (D : Dims) (lmax mbeam msky : ℕ) : Set Cell :=
  {l | ∃ a i k im, l = .cub a i mbeam k im ∧ (a = .C1 ∨ a = .C2) ∧ ((i : ℤ) = lmax + msky ∨ (i : ℤ) = lmax - msky) ∧
    i < D.n1 ∧ mbeam < D.n2 ∧ k < D.n3}

variable {W R : Set Cell}

theorem stays_kinc {D : Dims} {lmax mbeam msky lat : ℕ} {a : Arr} (ha : a = .C1 ∨ a = .C2) {i : ℤ} (hi : i = lmax + msky ∨ i = lmax - msky)
    (x y : ℝ) (hW : mskyCells D lmax mbeam msky ⊆ W) : Stays W R (incP D a i mbeam lat x y) := by
  by_cases h0 : 0 ≤ i
  · refine stays_inc x y (fun im h => hW ⟨a, i.toNat, lat, im, by simp, ha, ?_, by simpa using h⟩)
    rw [Int.toNat_of_nonneg h0]; exact hi
  · unfold incP
    refine stays_lift_bind (fun e he => ?_)
    unfold elem at he
    rw [if_neg (fun h => h0 h.1.1)] at he
    cases he

theorem mskyP_stays (clk : ℝ) (D : Dims) (ovf : Res ℤ) (pol : Bool) (s b : Num.Exps) (lmax nlat mbeam thread msky : ℕ) (q : Num.TS)
    (hX : thread = 0 → Cell.tPrep ∈ W ∧ Cell.nPrep ∈ W) (hW : mskyCells D lmax mbeam msky ⊆ W) :
    Stays W R (mskyP clk D ovf pol s b lmax nlat mbeam thread msky q) := by
  unfold mskyP
  refine stays_lift_bind (fun g _ => stays_lift_bind (fun gn _ => Stays.bind' (fun _ => ?_) ?_))
  · refine Stays.forN _ (fun lat _ q => ?_) _
    unfold latP
    refine stays_lift_bind (fun r _ => stays_lift_bind (fun rn _ => Stays.bind' (fun _ => stays_ret _) ?_))
    refine Stays.forN _ (fun k _ x => ?_) _
    unfold termP
    refine stays_lift_bind (fun d _ => stays_lift_bind (fun dn _ => stays_lift_bind (fun p _ => ?_)))
    refine Stays.bind' (fun _ => Stays.bind' (fun _ => Stays.bind' (fun _ => stays_ret _) ?_) ?_) ?_
    · unfold termNegP
      split
      · exact Stays.bind' (fun _ => stays_kinc (Or.inr rfl) (Or.inr (by omega)) _ _ hW)
          (stays_kinc (Or.inl rfl) (Or.inr (by omega)) _ _ hW)
      · trivial
    · exact stays_kinc (Or.inr rfl) (Or.inl (by omega)) _ _ hW
    · exact stays_kinc (Or.inl rfl) (Or.inl (by omega)) _ _ hW
  · unfold profP
    split
    · rename_i h
      exact Stays.bind' (fun _ => stays_add (hX h).2 _) (stays_add (hX h).1 _)
    · trivial

/-! ## effects -/

/-- Memory with both coefficient cubes replaced. -/
def put2 (m : Cell → ℝ) (C C' : Num.A3 ℂ) : Cell → ℝ := put (put m .C1 C) .C2 C'

theorem put_comm (m : Cell → ℝ) {a b : Arr} (h : a ≠ b) (C C' : Num.A3 ℂ) : put (put m a C) b C' = put (put m b C') a C := by
  funext l
  cases l with
  | cub x i j k im =>
    unfold put
    by_cases h1 : x = a
    · subst h1; simp [h]
    · simp [h1]
  | _ => rfl

theorem put2_put2 (m : Cell → ℝ) (A B C C' : Num.A3 ℂ) : put2 (put2 m A B) C C' = put2 m C C' := by
  unfold put2
  rw [put_comm _ (show Arr.C2 ≠ Arr.C1 by simp), put_put, put_comm _ (show Arr.C1 ≠ Arr.C2 by simp), put_comm _ (show Arr.C2 ≠ Arr.C1 by simp),
    put_put]

theorem cube_put2 {D : Dims} {A B : Num.A3 ℂ} (hA : HasDims A D) (hB : HasDims B D) (m : Cell → ℝ) :
    cube D (put2 m A B) .C1 = A ∧ cube D (put2 m A B) .C2 = B := by
  unfold put2
  exact ⟨by rw [cube_put_ne _ (by simp), cube_put hA], cube_put hB _ _⟩

theorem put2_cube (D : Dims) (m : Cell → ℝ) : put2 m (cube D m .C1) (cube D m .C2) = m := by
  unfold put2
  rw [put_cube, put_cube]

/-- The program, run alone, acts on the private data and the two cubes like the step `r` of the model. -/
def Sim2 {σ Τ : Type} (D : Dims) (mk : σ → Num.A3 ℂ → Num.A3 ℂ → Τ) (p : CProg σ) (r : Res Τ) (m : Cell → ℝ) : Prop :=
  ∀ S', r = ok S' → ∃ s' A B, S' = mk s' A B ∧ HasDims A D ∧ HasDims B D ∧ run p m = (ok s', put2 m A B)

theorem Sim2.forN {σ Τ : Type} {D : Dims} {mk : σ → Num.A3 ℂ → Num.A3 ℂ → Τ} {p : ℕ → σ → CProg σ} {f : ℕ → Τ → Res Τ} :
    ∀ (n : ℕ), (∀ i < n, ∀ s m, Sim2 D mk (p i s) (f i (mk s (cube D m .C1) (cube D m .C2))) m) → ∀ s m,
      Sim2 D mk (Prog.forN n p s) (Verif.forN n f (mk s (cube D m .C1) (cube D m .C2))) m
  | 0, _, s, m, S', h => by
    change ok _ = ok S' at h
    injection h with h
    exact ⟨s, _, _, h.symm, cube_dims D m _, cube_dims D m _, by rw [put2_cube]; rfl⟩
  | n + 1, hp, s, m, S', h => by
    rw [forN_succ] at h
    obtain ⟨S1, e1, e2⟩ := bind_eq_ok.mp h
    obtain ⟨s1, A, B, rfl, dA, dB, r1⟩ := Sim2.forN n (fun i hi => hp i (by omega)) s m S1 e1
    obtain ⟨c1, c2⟩ := cube_put2 dA dB m
    obtain ⟨s2, A', B', rfl, dA', dB', r2⟩ := hp n (by omega) s1 (put2 m A B) S' (by rw [c1, c2]; exact e2)
    refine ⟨s2, A', B', rfl, dA', dB', ?_⟩
    show run (Prog.bind _ _) m = _
    rw [run_bind_ok r1, r2, put2_put2]

/-- Two increments, one in each cube. -/
theorem run_inc2 {D : Dims} {m : Cell → ℝ} {i j k : ℤ} {x y x' y' : ℝ} {A B : Num.A3 ℂ} (h1 : Num.incr (cube D m .C1) i j k x y = ok A)
    (h2 : Num.incr (cube D m .C2) i j k x' y' = ok B) : HasDims A D ∧ HasDims B D ∧ ∀ {γ : Type} (f : Unit → CProg γ),
      run (incP D .C1 i j k x y >>= fun _ => incP D .C2 i j k x' y' >>= f) m = run (f ()) (put2 m A B) := by
  obtain ⟨d1, r1⟩ := sim_inc D (fun _ => True) .C1 i j k x y m A trivial h1
  obtain ⟨d2, r2⟩ := sim_inc D (fun _ => True) .C2 i j k x' y' (put m .C1 A) B trivial (by rw [cube_put_ne m (by simp)]; exact h2)
  refine ⟨d1, d2, fun f => ?_⟩
  rw [run_bind_ok' r1, run_bind_ok' r2]
  rfl

theorem sim_termNeg (D : Dims) (lmax mbeam msky lat : ℤ) (dsign en en2 : ℝ) (p : ℝ × ℝ × ℝ × ℝ) (dlb : ℝ) (m : Cell → ℝ) :
    Sim2 D (fun (_ : Unit) A B => Num.KS.mk dlb A B) (termNegP D lmax mbeam msky lat dsign en en2 p)
      (Num.termNeg lmax mbeam msky lat dsign en en2 p ⟨dlb, cube D m .C1, cube D m .C2⟩) m := by
  intro S' h
  unfold Num.termNeg at h
  unfold termNegP
  split at h <;> rename_i h0
  · obtain ⟨A, e1, h⟩ := bind_eq_ok.mp h
    obtain ⟨B, e2, h⟩ := bind_eq_ok.mp h
    injection h with h
    obtain ⟨dA, dB, r⟩ := run_inc2 e1 e2
    refine ⟨(), A, B, h.symm, dA, dB, ?_⟩
    rw [if_pos h0]
    have := r (fun _ => .ret (ok ()))
    rw [run_ret] at this
    rw [← this]
    dsimp only
    obtain ⟨d1, r1⟩ := sim_inc D (fun _ => True) .C1 _ _ _ _ _ m A trivial e1
    obtain ⟨d2, r2⟩ := sim_inc D (fun _ => True) .C2 _ _ _ _ _ (put m .C1 A) B trivial (by rw [cube_put_ne m (by simp)]; exact e2)
    rw [run_bind_ok' r1, run_bind_ok' r1, r2, run_bind_ok' r2]
    rfl
  · injection h with h
    refine ⟨(), _, _, h.symm, cube_dims D m _, cube_dims D m _, ?_⟩
    rw [if_neg h0, put2_cube]
    rfl

theorem sim_term (D : Dims) (pol : Bool) (s b : Num.Exps) (lmax mbeam msky lat : ℤ) (dsign dsb : ℝ) (dmm dmmneg : List ℝ) (ii : ℤ) (dlb : ℝ)
    (m : Cell → ℝ) : Sim2 D Num.KS.mk (termP D pol s b lmax mbeam msky lat dsign dsb dmm dmmneg ii dlb)
      (Num.term pol s b lmax mbeam msky lat dsign dsb dmm dmmneg ii ⟨dlb, cube D m .C1, cube D m .C2⟩) m := by
  intro S' h
  unfold Num.term at h
  obtain ⟨d, e1, h⟩ := bind_eq_ok.mp h
  obtain ⟨dn, e2, h⟩ := bind_eq_ok.mp h
  obtain ⟨p, e3, h⟩ := bind_eq_ok.mp h
  obtain ⟨A, e4, h⟩ := bind_eq_ok.mp h
  obtain ⟨B, e5, h⟩ := bind_eq_ok.mp h
  obtain ⟨dA, dB, r⟩ := run_inc2 e4 e5
  obtain ⟨c1, c2⟩ := cube_put2 dA dB m
  obtain ⟨u, A', B', hS, dA', dB', r'⟩ := sim_termNeg D lmax mbeam msky lat dsign (dsb * dn) (-dlb * (dsb * d)) p (-dlb) (put2 m A B) S'
    (by rw [c1, c2]; exact h)
  refine ⟨-dlb, A', B', hS, dA', dB', ?_⟩
  unfold termP
  rw [run_lift_ok e1, run_lift_ok e2, run_lift_ok e3]
  refine (r _).trans ?_
  rw [run_bind_ok' r', put2_put2]
  rfl

theorem sim_lat (D : Dims) (pol : Bool) (s b : Num.Exps) (lmax : ℕ) (mbeam msky : ℤ) (lat : ℕ) (q : Num.TS) (m : Cell → ℝ) :
    Sim2 D (fun q A B => (q, A, B)) (latP D pol s b lmax mbeam msky lat q)
      (Num.latBody pol s b lmax mbeam msky lat (q, cube D m .C1, cube D m .C2)) m := by
  intro S' h
  unfold Num.latBody at h
  obtain ⟨r, e1, h⟩ := bind_eq_ok.mp h
  obtain ⟨rn, e2, h⟩ := bind_eq_ok.mp h
  obtain ⟨st, e3, h⟩ := bind_eq_ok.mp h
  injection h with h
  obtain ⟨x, A, B, hst, dA, dB, r3⟩ := Sim2.forN (D := D) (mk := Num.KS.mk)
    (p := fun k x => termP D pol s b lmax mbeam msky lat (Num.xpow msky 1) (Num.xpow msky 1 * Num.xpow mbeam 1) r.2 rn.2 (max r.1 rn.1 + k) x)
    (f := fun k st => Num.term pol s b lmax mbeam msky lat (Num.xpow msky 1) (Num.xpow msky 1 * Num.xpow mbeam 1) r.2 rn.2 (max r.1 rn.1 + k) st)
    ((lmax : ℤ) + 1 - max r.1 rn.1).toNat (fun i _ x m => sim_term D pol s b lmax mbeam msky lat _ _ _ _ _ x m)
    (-(Num.xpow (max r.1 rn.1) (Num.xpow mbeam 1))) m st e3
  refine ⟨{ q with buf := r.2, bufneg := rn.2 }, A, B, ?_, dA, dB, ?_⟩
  · rw [← h, hst]
  · unfold latP
    rw [run_lift_ok e1, run_lift_ok e2]
    refine (run_bind_ok' r3).trans ?_
    rfl

/-- One iteration over `msky` by a thread other than 0. -/
theorem sim_msky (clk : ℝ) (D : Dims) (ovf : Res ℤ) (pol : Bool) (s b : Num.Exps) (lmax nlat mbeam msky thread : ℕ) (ht : thread ≠ 0) (q : Num.TS)
    (m : Cell → ℝ) : Sim2 D (fun q A B => (q, A, B)) (mskyP clk D ovf pol s b lmax nlat mbeam thread msky q)
      (Num.mskyBody ovf pol s b lmax nlat mbeam msky (q, cube D m .C1, cube D m .C2)) m := by
  intro S' h
  unfold Num.mskyBody at h
  obtain ⟨g, e1, h⟩ := bind_eq_ok.mp h
  obtain ⟨gn, e2, h⟩ := bind_eq_ok.mp h
  obtain ⟨q', A, B, hS, dA, dB, r⟩ := Sim2.forN (D := D) (mk := fun (q : Num.TS) A B => (q, A, B))
    (p := fun lat q => latP D pol s b lmax mbeam msky lat q) (f := fun lat q => Num.latBody pol s b lmax mbeam msky lat q)
    nlat (fun i _ q m => sim_lat D pol s b lmax mbeam msky i q m) { q with g := g, gneg := gn } m S' h
  refine ⟨q', A, B, hS, dA, dB, ?_⟩
  unfold mskyP profP
  rw [run_lift_ok e1, run_lift_ok e2, if_neg ht]
  exact r

/-- Counters only. -/
theorem run_prof (thread : ℕ) (ct cn : Cell) (dt : ℝ) (m : Cell → ℝ) : ∃ m', run (profP thread ct cn dt) m = (ok (), m') ∧
    ∀ l, l ≠ ct → l ≠ cn → m' l = m l := by
  unfold profP
  split
  · have e1 : ∀ (c : Cell) (v : ℝ) (m : Cell → ℝ), run (addP c v) m = (ok (), Function.update m c (m c + v)) := by
      intro c v m
      unfold addP
      rw [run_rd_bind, run_wr]
    refine ⟨_, by rw [run_bind_ok' (e1 _ _ _), e1], fun l h1 h2 => ?_⟩
    rw [Function.update_of_ne h2, Function.update_of_ne h1]
  · exact ⟨m, rfl, fun _ _ _ => rfl⟩

/-- One iteration over `msky` by any thread: the same, up to counters. -/
theorem sim_msky_any (clk : ℝ) (D : Dims) (ovf : Res ℤ) (pol : Bool) (s b : Num.Exps) (lmax nlat mbeam msky thread : ℕ) (q : Num.TS)
    (m : Cell → ℝ) {q' : Num.TS} {A B : Num.A3 ℂ} (h : Num.mskyBody ovf pol s b lmax nlat mbeam msky (q, cube D m .C1, cube D m .C2) = ok (q', A, B)) :
    (run (mskyP clk D ovf pol s b lmax nlat mbeam thread msky q) m).1 = ok q' ∧
    ∀ l, l ≠ .tPrep → l ≠ .nPrep → (run (mskyP clk D ovf pol s b lmax nlat mbeam thread msky q) m).2 l = put2 m A B l := by
  unfold Num.mskyBody at h
  obtain ⟨g, e1, h⟩ := bind_eq_ok.mp h
  obtain ⟨gn, e2, h⟩ := bind_eq_ok.mp h
  obtain ⟨m', r1, hm'⟩ := run_prof thread .tPrep .nPrep clk m
  have c : ∀ a, cube D m' a = cube D m a := by
    intro a
    unfold cube
    congr 1
    funext i j k
    rw [hm' _ (by simp) (by simp), hm' _ (by simp) (by simp)]
  obtain ⟨q'', A', B', hS, dA, dB, r⟩ := Sim2.forN (D := D) (mk := fun (q : Num.TS) A B => (q, A, B))
    (p := fun lat q => latP D pol s b lmax mbeam msky lat q) (f := fun lat q => Num.latBody pol s b lmax mbeam msky lat q)
    nlat (fun i _ q m => sim_lat D pol s b lmax mbeam msky i q m) { q with g := g, gneg := gn } m' (q', A, B) (by rw [c, c]; exact h)
  simp only [Prod.mk.injEq] at hS
  obtain ⟨rfl, rfl, rfl⟩ := hS
  have e : run (mskyP clk D ovf pol s b lmax nlat mbeam thread msky q) m = (ok q', put2 m' A B) := by
    unfold mskyP
    rw [run_lift_ok e1, run_lift_ok e2, run_bind_ok' r1]
    exact r
  rw [e]
  refine ⟨rfl, fun l h1 h2 => ?_⟩
  show put2 m' A B l = _
  unfold put2 put
  cases l <;> simp_all

end Verif.Par
