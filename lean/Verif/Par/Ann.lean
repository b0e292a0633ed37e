import Verif.Par.Sim

/-!
# The region of `todAnnulus`: footprints and effects
-/

namespace Verif.Par
open Verif Res

variable {α β σ : Type}

/-! ## footprints -/

/-- Row `i` of cube `a`. -/
def rowOf (D : Dims) (a : Arr) (i : ℕ) : Set Cell := {l | ∃ j k im, l = .cub a i j k im ∧ i < D.n1 ∧ j < D.n2 ∧ k < D.n3}
/-- Column `j` of cube `a`. -/
def colOf (D : Dims) (a : Arr) (j : ℕ) : Set Cell := {l | ∃ i k im, l = .cub a i j k im ∧ i < D.n1 ∧ j < D.n2 ∧ k < D.n3}
/-- All of cube `a`. -/
def allOf (D : Dims) (a : Arr) : Set Cell := {l | ∃ i j k im, l = .cub a i j k im ∧ i < D.n1 ∧ j < D.n2 ∧ k < D.n3}
/-- The tables. -/
def tabs (D : Dims) : Set Cell := {l | ∃ i, (l = .cs i ∨ l = .sn i ∨ l = .cs0 i ∨ l = .sn0 i) ∧ i < D.n1}

variable {W R : Set Cell}

theorem stays_rd {l : Cell} (h : l ∈ W ∨ l ∈ R) : Stays W R (Prog.rdP l : CProg ℝ) := ⟨h, fun _ => trivial⟩
theorem stays_wr {l : Cell} (h : l ∈ W) (v : ℝ) : Stays W R (Prog.wrP l v : CProg Unit) := ⟨h, trivial⟩
theorem stays_lift (r : Res α) : Stays W R (Prog.lift r : CProg α) := trivial
theorem stays_ret (r : Res α) : Stays W R (.ret r : CProg α) := trivial

theorem stays_lift_bind {r : Res α} {f : α → CProg β} (h : ∀ a, r = ok a → Stays W R (f a)) : Stays W R (Prog.lift r >>= f) := by
  cases r with
  | ok a => exact h a rfl
  | throw e => trivial
  | ub e => trivial

theorem stays_tab {c : ℕ → Cell} (n : ℕ) (h : ∀ i < n, c i ∈ R) (i : ℤ) : Stays W R (tabP c n i) := by
  unfold tabP
  split
  · exact stays_rd (Or.inr (h _ (by omega)))
  · trivial

theorem elem_eq {D : Dims} {i j k : ℤ} {e : ℕ × ℕ × ℕ} (h : elem D i j k = ok e) :
    e = (i.toNat, j.toNat, k.toNat) ∧ i.toNat < D.n1 ∧ j.toNat < D.n2 ∧ k.toNat < D.n3 := by
  unfold elem at h
  split at h
  · injection h with h; exact ⟨h.symm, by omega⟩
  · cases h

theorem stays_rot {D : Dims} {a : Arr} {i j k : ℤ} (c s : ℝ)
    (h : ∀ im, i.toNat < D.n1 ∧ j.toNat < D.n2 ∧ k.toNat < D.n3 → Cell.cub a i.toNat j.toNat k.toNat im ∈ W) :
    Stays W R (rotP D a i j k c s) := by
  unfold rotP
  refine stays_lift_bind (fun e he => ?_)
  rw [(elem_eq he).1]
  have h := fun im => h im (elem_eq he).2
  exact Stays.bind' (fun _ => Stays.bind' (fun _ => Stays.bind' (fun _ => stays_wr (h _) _) (stays_wr (h _) _))
    (stays_rd (Or.inl (h _)))) (stays_rd (Or.inl (h _)))

theorem stays_add {c : Cell} (h : c ∈ W) (x : ℝ) : Stays W R (addP c x) := by
  unfold addP
  exact Stays.bind' (fun _ => stays_wr h _) (stays_rd (Or.inl h))

theorem stays_inc {D : Dims} {a : Arr} {i j k : ℤ} (x y : ℝ)
    (h : ∀ im, i.toNat < D.n1 ∧ j.toNat < D.n2 ∧ k.toNat < D.n3 → Cell.cub a i.toNat j.toNat k.toNat im ∈ W) :
    Stays W R (incP D a i j k x y) := by
  unfold incP
  refine stays_lift_bind (fun e he => ?_)
  rw [(elem_eq he).1]
  have h := fun im => h im (elem_eq he).2
  exact Stays.bind' (fun _ => stays_add (h _) _) (stays_add (h _) _)

theorem tabs_cs (D : Dims) (i : ℕ) (h : i < D.n1) : Cell.cs i ∈ tabs D := ⟨i, by simp, h⟩
theorem tabs_sn (D : Dims) (i : ℕ) (h : i < D.n1) : Cell.sn i ∈ tabs D := ⟨i, by simp, h⟩
theorem tabs_cs0 (D : Dims) (i : ℕ) (h : i < D.n1) : Cell.cs0 i ∈ tabs D := ⟨i, by simp, h⟩
theorem tabs_sn0 (D : Dims) (i : ℕ) (h : i < D.n1) : Cell.sn0 i ∈ tabs D := ⟨i, by simp, h⟩

theorem bodyA_stays (D : Dims) (a : Pair) (npsi nlat ii : ℕ) (q : List ℂ) : Stays (rowOf D a.C ii) (tabs D) (bodyA D a npsi nlat ii q) := by
  unfold bodyA
  refine Stays.bind' (fun _ => Stays.bind' (fun _ => ?_) (stays_tab _ (tabs_sn D) _)) (stays_tab _ (tabs_cs D) _)
  refine Stays.forL _ (fun mb _ q => Stays.forL _ (fun lat _ q => Stays.bind' (fun _ => stays_ret _) (stays_rot _ _ (fun im => ?_))) _) _
  exact fun h => ⟨mb, lat, im, by simp, by simpa using h⟩

theorem bodyB_stays (D : Dims) (a : Pair) (fft : List ℂ → List ℂ) (lmax nlat mb : ℕ) (q : List ℂ) :
    Stays (colOf D a.T mb) (allOf D a.C) (bodyB D a fft lmax nlat mb q) := by
  unfold bodyB
  refine Stays.forL _ (fun lat _ q => ?_) _
  unfold latB
  refine Stays.bind' (fun q => Stays.forL _ (fun k _ q => ?_) _) (Stays.forL _ (fun ii _ q => ?_) _)
  · unfold drainP
    refine stays_lift_bind (fun x _ => stays_lift_bind (fun e he => ?_))
    have hr := (elem_eq he).2
    rw [(elem_eq he).1]
    have h : ∀ im, Cell.cub a.T ((k : ℤ)).toNat ((mb : ℤ)).toNat ((lat : ℤ)).toNat im ∈ colOf D a.T mb :=
      fun im => ⟨k, lat, im, by simp, by simpa using hr⟩
    exact Stays.bind' (fun _ => Stays.bind' (fun _ => stays_ret _) (stays_wr (h _) _)) (stays_wr (h _) _)
  · unfold fillP
    refine stays_lift_bind (fun e he => ?_)
    have h : ∀ im, Cell.cub a.C e.1 e.2.1 e.2.2 im ∈ allOf D a.C := fun im => ⟨_, _, _, im, rfl, by rw [(elem_eq he).1]; exact (elem_eq he).2⟩
    exact Stays.bind' (fun _ => Stays.bind' (fun _ => stays_lift _) (stays_rd (Or.inr (h _)))) (stays_rd (Or.inr (h _)))

theorem bodyC_stays (D : Dims) (a : Pair) (lmax npsi nlat ii : ℕ) (q : List ℂ) : Stays (rowOf D a.T ii) (tabs D) (bodyC D a lmax npsi nlat ii q) := by
  unfold bodyC
  refine Stays.bind' (fun _ => Stays.bind' (fun _ => ?_) (stays_tab _ (tabs_sn0 D) _)) (stays_tab _ (tabs_cs0 D) _)
  refine Stays.forL _ (fun mb _ q => Stays.bind' (fun _ => Stays.bind' (fun _ => ?_) (stays_tab _ (tabs_sn D) _)) (stays_tab _ (tabs_cs D) _)) _
  refine Stays.forL _ (fun lat _ q => ?_) _
  have h : ∀ im, (ii : ℤ).toNat < D.n1 ∧ (mb : ℤ).toNat < D.n2 ∧ (lat : ℤ).toNat < D.n3 →
      Cell.cub a.T ((ii : ℤ)).toNat ((mb : ℤ)).toNat ((lat : ℤ)).toNat im ∈ rowOf D a.T ii :=
    fun im hr => ⟨mb, lat, im, by simp, by simpa using hr⟩
  exact Stays.bind' (fun _ => Stays.bind' (fun _ => stays_ret _) (stays_rot _ _ h)) (stays_rot _ _ h)

/-! ## effects -/

def HasDims (C : Num.A3 ℂ) (D : Dims) : Prop := C.n1 = D.n1 ∧ C.n2 = D.n2 ∧ C.n3 = D.n3

theorem forL_total {D : Dims} {f : β → Num.A3 ℂ → Res (Num.A3 ℂ)} : ∀ {xs : List β},
    (∀ x ∈ xs, ∀ C, HasDims C D → ∃ C', f x C = ok C' ∧ HasDims C' D) → ∀ C, HasDims C D → ∃ C', Num.forL xs f C = ok C' ∧ HasDims C' D
  | [], _, C, hC => ⟨C, rfl, hC⟩
  | x :: xs, h, C, hC => by
    obtain ⟨C1, e1, h1⟩ := h x List.mem_cons_self C hC
    obtain ⟨C2, e2, h2⟩ := forL_total (fun y hy => h y (List.mem_cons_of_mem _ hy)) C1 h1
    refine ⟨C2, ?_, h2⟩
    show (f x C >>= fun C => Num.forL xs f C) = _
    rw [e1]; exact e2

theorem upd3_total {D : Dims} {C : Num.A3 ℂ} (hC : HasDims C D) {i j k : ℕ} (hi : i < D.n1) (hj : j < D.n2) (hk : k < D.n3) (f : ℂ → ℂ) :
    ∃ C', Num.upd3 C i j k f = ok C' ∧ HasDims C' D := by
  obtain ⟨h1, h2, h3⟩ := hC
  unfold Num.upd3
  rw [if_pos]
  · exact ⟨_, rfl, h1, h2, h3⟩
  · unfold Num.A3.In; omega

/-- Iteration of the first loop, for tables `c`, `s`. -/
noncomputable def fA (c s : ℕ → ℝ) (npsi nlat ii : ℕ) (C : Num.A3 ℂ) : Res (Num.A3 ℂ) :=
  Num.forL (List.range npsi) (fun mbeam C => Num.forL (List.range nlat) (fun lat C => Num.upd3 C ii mbeam lat (Num.rot (c ii) (s ii))) C) C

/-- Iteration of the third loop, for tables `c0`, `s0`, `c`, `s`. -/
noncomputable def fC (c0 s0 c s : ℕ → ℝ) (lmax npsi nlat ii : ℕ) (C : Num.A3 ℂ) : Res (Num.A3 ℂ) :=
  Num.forL (List.range npsi) (fun mbeam C => Num.forL (List.range nlat) (fun lat C =>
    Num.upd3 C ii mbeam lat (fun z => Num.rot (c (mbeam + lmax)) (s (mbeam + lmax)) (Num.rot (c0 ii) (s0 ii) z))) C) C

/-- The tables in memory. -/
def Tab (c s c0 s0 : ℕ → ℝ) (m : Cell → ℝ) : Prop := ∀ i, m (.cs i) = c i ∧ m (.sn i) = s i ∧ m (.cs0 i) = c0 i ∧ m (.sn0 i) = s0 i

theorem tab_blind (c s c0 s0 : ℕ → ℝ) (a : Arr) : Blind (Tab c s c0 s0) a := fun _ _ h i => h i

theorem run_tab {c : ℕ → Cell} {n : ℕ} {i : ℤ} (h : 0 ≤ i ∧ i < n) (f : ℝ → CProg β) (m : Cell → ℝ) :
    run (tabP c n i >>= f) m = run (f (m (c i.toNat))) m := by
  unfold tabP
  rw [if_pos h]; rfl

theorem simA {D : Dims} {a : Pair} {npsi nlat ii : ℕ} (hi : ii < D.n1) (c s c0 s0 : ℕ → ℝ) (q : List ℂ) :
    Sim D (Tab c s c0 s0) a.C (bodyA D a npsi nlat ii q) q (fA c s npsi nlat ii) := by
  intro m C' hT e
  have h : 0 ≤ (ii : ℤ) ∧ (ii : ℤ) < D.n1 := by omega
  unfold bodyA
  rw [run_tab h, run_tab h, Int.toNat_natCast, (hT ii).1, (hT ii).2.1]
  exact Sim.forL (xs := List.range npsi) (f := fun (mbeam : ℕ) C => Num.forL (List.range nlat) (fun (lat : ℕ) C =>
      Num.upd3 C ii mbeam lat (Num.rot (c ii) (s ii))) C) (tab_blind c s c0 s0 a.C) (fun mb _ q => Sim.forL (xs := List.range nlat)
    (f := fun (lat : ℕ) C => Num.upd3 C ii mb lat (Num.rot (c ii) (s ii))) (tab_blind c s c0 s0 a.C) (fun lat _ q =>
    (sim_rot D _ a.C ii mb lat _ _).ret q) q) q m C' hT e

theorem sim_rot2 (D : Dims) (P : (Cell → ℝ) → Prop) (a : Arr) (i j k : ℤ) (c s c' s' : ℝ) (q : σ) :
    Sim D P a (rotP D a i j k c s >>= fun _ => rotP D a i j k c' s' >>= fun _ => .ret (ok q)) q
      (fun C => Num.upd3 C i j k (fun z => Num.rot c' s' (Num.rot c s z))) := by
  intro m C' hP h
  obtain ⟨hin, hd, hp⟩ := upd3_dims h
  refine ⟨hd, ?_⟩
  have e1 : ∀ (c s : ℝ) (m : Cell → ℝ), run (rotP D a i j k c s) m = (ok (), Function.update (Function.update m
      (.cub a i.toNat j.toNat k.toNat false) (Num.rot c s ((cube D m a).val i.toNat j.toNat k.toNat)).re)
        (.cub a i.toNat j.toNat k.toNat true) (Num.rot c s ((cube D m a).val i.toNat j.toNat k.toNat)).im) := by
    intro c s m
    unfold rotP
    rw [run_lift_ok (elem_ok hin), run_rd_bind, run_rd_bind, run_wr_bind, run_wr]
    rfl
  rw [run_bind_ok' (e1 c s m), run_bind_ok' (e1 c' s' _), run_ret, hp]
  congr 1
  have e2 : (cube D (Function.update (Function.update m (.cub a i.toNat j.toNat k.toNat false)
      (Num.rot c s ((cube D m a).val i.toNat j.toNat k.toNat)).re) (.cub a i.toNat j.toNat k.toNat true)
      (Num.rot c s ((cube D m a).val i.toNat j.toNat k.toNat)).im) a).val i.toNat j.toNat k.toNat =
      Num.rot c s ((cube D m a).val i.toNat j.toNat k.toNat) := by
    unfold cube
    simp
  rw [e2]
  funext l
  simp only [Function.update_apply]
  split <;> rename_i h1
  · rfl
  · split <;> rename_i h2
    · rfl
    · rfl

theorem simC {D : Dims} {a : Pair} {lmax npsi nlat ii : ℕ} (hi : ii < D.n1) (hn : npsi + lmax ≤ D.n1) (c s c0 s0 : ℕ → ℝ) (q : List ℂ) :
    Sim D (Tab c s c0 s0) a.T (bodyC D a lmax npsi nlat ii q) q (fC c0 s0 c s lmax npsi nlat ii) := by
  intro m C' hT e
  have h : 0 ≤ (ii : ℤ) ∧ (ii : ℤ) < D.n1 := by omega
  unfold bodyC
  rw [run_tab h, run_tab h, Int.toNat_natCast, (hT ii).2.2.1, (hT ii).2.2.2]
  refine Sim.forL (tab_blind c s c0 s0 a.T) (fun mb hmb q => ?_) q m C' hT e
  intro m C' hT e
  have hmb := List.mem_range.mp hmb
  have h : 0 ≤ (mb : ℤ) + lmax ∧ (mb : ℤ) + lmax < D.n1 := by omega
  rw [run_tab h, run_tab h, show ((mb : ℤ) + lmax).toNat = mb + lmax by omega, (hT _).1, (hT _).2.1]
  exact Sim.forL (xs := List.range nlat) (f := fun (lat : ℕ) C => Num.upd3 C ii mb lat (fun z => Num.rot (c (mb + lmax)) (s (mb + lmax))
      (Num.rot (c0 ii) (s0 ii) z))) (tab_blind c s c0 s0 a.T) (fun lat _ q => sim_rot2 D _ a.T ii mb lat _ _ _ _ q) q m C' hT e

/-! the second loop -/

theorem run_fill {D : Dims} {a : Arr} {mb lat : ℕ} (hj : mb < D.n2) (hk : lat < D.n3) (m : Cell → ℝ) :
    ∀ (xs : List ℕ), (∀ x ∈ xs, x < D.n1) → ∀ (q : List ℂ), q.length = D.n1 →
      ∃ q', run (Prog.forL xs (fillP D a mb lat) q) m = (ok q', m) ∧ q'.length = D.n1 ∧
        ∀ i, q'[i]? = if i ∈ xs then some ((cube D m a).val i mb lat) else q[i]?
  | [], _, q, hq => ⟨q, rfl, hq, fun i => by simp⟩
  | x :: xs, hx, q, hq => by
    have hx0 := hx x List.mem_cons_self
    have e1 : run (fillP D a mb lat x q) m = (ok (q.set x ((cube D m a).val x mb lat)), m) := by
      unfold fillP
      rw [run_lift_ok (elem_ok (by omega)), run_rd_bind, run_rd_bind]
      unfold Prog.lift
      rw [wr_nat _ (by omega)]
      rfl
    obtain ⟨q', e2, h2, h3⟩ := run_fill hj hk m xs (fun y hy => hx y (List.mem_cons_of_mem _ hy)) (q.set x ((cube D m a).val x mb lat))
      (by simpa using hq)
    refine ⟨q', ?_, h2, fun i => ?_⟩
    · show run (Prog.bind _ _) m = _
      rw [run_bind_ok e1]; exact e2
    · rw [h3 i]
      by_cases hi : i ∈ xs
      · simp [hi]
      · by_cases hix : i = x
        · subst hix; simp [hi, hq, hx0]
        · rw [if_neg hi, if_neg (by simp [hi, hix]), List.getElem?_set_ne (fun h => hix h.symm)]

/-- The column `(mb, lat)` of the cube. -/
def column (D : Dims) (C : Num.A3 ℂ) (mb lat : ℕ) : List ℂ := (List.range D.n1).map (fun ii => C.val ii mb lat)

theorem run_fill_all {D : Dims} {a : Arr} {mb lat : ℕ} (hj : mb < D.n2) (hk : lat < D.n3) (m : Cell → ℝ) (q : List ℂ) (hq : q.length = D.n1) :
    run (Prog.forL (List.range D.n1) (fillP D a mb lat) q) m = (ok (column D (cube D m a) mb lat), m) := by
  obtain ⟨q', e, h1, h2⟩ := run_fill (a := a) hj hk m (List.range D.n1) (fun x hx => List.mem_range.mp hx) q hq
  rw [e]
  congr 2
  apply List.ext_getElem?
  intro i
  rw [h2 i]
  unfold column
  by_cases hi : i < D.n1
  · simp [hi]
  · simp [hi, List.getElem?_eq_none (show q.length ≤ i by omega)]

theorem sim_drain (D : Dims) (P : (Cell → ℝ) → Prop) (a : Arr) (mb lat k : ℕ) (q : List ℂ) :
    Sim D P a (drainP D a mb lat k q) q (fun tod => rd q k >>= fun x => Num.upd3 tod k mb lat (fun _ => x)) := by
  intro m C' _ h
  obtain ⟨x, hx, h⟩ := bind_eq_ok.mp h
  obtain ⟨hin, hd, hp⟩ := upd3_dims h
  refine ⟨hd, ?_⟩
  unfold drainP
  rw [run_lift_ok hx, run_lift_ok (elem_ok hin), run_wr_bind, run_wr_bind, run_ret, hp]

/-- Iteration of the second loop for one latitude, acting on `tod`; `C` is the other cube. -/
noncomputable def fB1 (D : Dims) (fft : List ℂ → List ℂ) (C : Num.A3 ℂ) (mb lat : ℕ) (tod : Num.A3 ℂ) : Res (Num.A3 ℂ) :=
  Num.forL (List.range D.n1) (fun (k : ℕ) tod => rd (fft (column D C mb lat)) k >>= fun x => Num.upd3 tod k mb lat (fun _ => x)) tod

noncomputable def fB (D : Dims) (fft : List ℂ → List ℂ) (C : Num.A3 ℂ) (nlat mb : ℕ) (tod : Num.A3 ℂ) : Res (Num.A3 ℂ) :=
  Num.forL (List.range nlat) (fun lat tod => fB1 D fft C mb lat tod) tod

theorem run_latB {D : Dims} {a : Pair} {fft : List ℂ → List ℂ} {lmax mb lat : ℕ} (hD : D.n1 = 2 * lmax + 1) (hj : mb < D.n2) (hk : lat < D.n3)
    (hf : ∀ q, q.length = D.n1 → (fft q).length = D.n1) {q : List ℂ} (hq : q.length = D.n1) {m : Cell → ℝ} {T' : Num.A3 ℂ}
    (h : fB1 D fft (cube D m a.C) mb lat (cube D m a.T) = ok T') :
    HasDims T' D ∧ ∃ q', q'.length = D.n1 ∧ run (latB D a fft lmax mb lat q) m = (ok q', put m a.T T') := by
  -- the drain loop keeps its private list
  have key : ∀ (xs : List ℕ) (m' : Cell → ℝ) (T'' : Num.A3 ℂ), Num.forL xs (fun (k : ℕ) tod =>
      rd (fft (column D (cube D m a.C) mb lat)) k >>= fun x => Num.upd3 tod k mb lat (fun _ => x)) (cube D m' a.T) = ok T'' →
      HasDims T'' D ∧ run (Prog.forL xs (drainP D a.T mb lat) (fft (column D (cube D m a.C) mb lat))) m' =
        (ok (fft (column D (cube D m a.C) mb lat)), put m' a.T T'') := by
    intro xs
    induction xs with
    | nil =>
      intro m' T'' h
      change ok (cube D m' a.T) = ok T'' at h
      injection h with h
      subst h
      exact ⟨⟨rfl, rfl, rfl⟩, by rw [put_cube]; rfl⟩
    | cons x xs ih =>
      intro m' T'' h
      change ((rd (fft (column D (cube D m a.C) mb lat)) x >>= fun y => Num.upd3 (cube D m' a.T) x mb lat (fun _ => y)) >>= fun C =>
        Num.forL xs _ C) = ok T'' at h
      obtain ⟨T1, e1, e2⟩ := bind_eq_ok.mp h
      obtain ⟨d1, r1⟩ := sim_drain D (fun _ => True) a.T mb lat x _ m' T1 trivial e1
      obtain ⟨d2, r2⟩ := ih (put m' a.T T1) T'' (by rw [cube_put d1]; exact e2)
      refine ⟨d2, ?_⟩
      show run (Prog.bind _ _) m' = _
      rw [run_bind_ok r1, r2, put_put]
  obtain ⟨d, r⟩ := key _ m T' h
  refine ⟨d, fft (column D (cube D m a.C) mb lat), hf _ (by simp [column]), ?_⟩
  unfold latB
  have e := run_fill_all (a := a.C) hj hk m q hq
  rw [hD] at e r
  rw [run_bind_ok' e]
  exact r

theorem run_bodyB {D : Dims} {a : Pair} (ha : a.C ≠ a.T) {fft : List ℂ → List ℂ} {lmax mb : ℕ} (hD : D.n1 = 2 * lmax + 1) (hj : mb < D.n2)
    (hf : ∀ q, q.length = D.n1 → (fft q).length = D.n1) (C : Num.A3 ℂ) : ∀ (xs : List ℕ), (∀ x ∈ xs, x < D.n3) → ∀ (q : List ℂ), q.length = D.n1 →
    ∀ (m : Cell → ℝ) (T' : Num.A3 ℂ), cube D m a.C = C →
    Num.forL xs (fun lat tod => fB1 D fft C mb lat tod) (cube D m a.T) = ok T' →
    HasDims T' D ∧ ∃ q', q'.length = D.n1 ∧ run (Prog.forL xs (fun lat q => latB D a fft lmax mb lat q) q) m = (ok q', put m a.T T')
  | [], _, q, hq, m, T', _, h => by
    change ok (cube D m a.T) = ok T' at h
    injection h with h
    subst h
    exact ⟨⟨rfl, rfl, rfl⟩, q, hq, by rw [put_cube]; rfl⟩
  | x :: xs, hx, q, hq, m, T', hC, h => by
    change (fB1 D fft C mb x (cube D m a.T) >>= fun T => Num.forL xs _ T) = ok T' at h
    obtain ⟨T1, e1, e2⟩ := bind_eq_ok.mp h
    obtain ⟨d1, q1, hq1, r1⟩ := run_latB hD hj (hx x List.mem_cons_self) hf hq (m := m) (by rw [hC]; exact e1)
    obtain ⟨d2, q2, hq2, r2⟩ := run_bodyB ha hD hj hf C xs (fun y hy => hx y (List.mem_cons_of_mem _ hy)) q1 hq1 (put m a.T T1) T'
      (by rw [cube_put_ne m ha]; exact hC) (by rw [cube_put d1]; exact e2)
    refine ⟨d2, q2, hq2, ?_⟩
    show run (Prog.bind _ _) m = _
    rw [run_bind_ok r1, r2, put_put]

end Verif.Par
