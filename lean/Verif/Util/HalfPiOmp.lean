import Verif.Util.HalfPiProof

/-!
# Risbo recursion at π/2 (C76): the OpenMP class
-/

namespace Verif.HalfPi

open Verif Res Verif.Risbo Verif.Num
open Verif.Par (Prog run Stays run_bind_ok run_bind_ok')

/-! ## programs with several outcomes -/

/-- Some outcome exists, and every outcome is a value with property `Q`. -/
def ND.All {α : Type} (x : ND α) (Q : α → Prop) : Prop := (∃ r, x r) ∧ ∀ r, x r → ∃ a, r = ok a ∧ Q a

theorem ND.All.det {α : Type} {x : Res α} {a : α} {Q : α → Prop} (h : x = ok a) (hq : Q a) : ND.All (ND.det x) Q :=
  ⟨⟨_, rfl⟩, fun r hr => ⟨a, by rw [show r = x from hr, h], hq⟩⟩

theorem ND.All.any {α β : Type} [Nonempty β] {f : β → α} {Q : α → Prop} (h : ∀ b, Q (f b)) : ND.All (ND.any f) Q :=
  ⟨⟨ok (f (Classical.arbitrary β)), _, rfl⟩, fun _ ⟨b, hb⟩ => ⟨f b, hb, h b⟩⟩

theorem ND.All.bind {α β : Type} {x : ND α} {f : α → ND β} {Q : α → Prop} {Q' : β → Prop} (hx : ND.All x Q)
    (hf : ∀ a, Q a → ND.All (f a) Q') : ND.All (x >>= f) Q' := by
  obtain ⟨⟨r, hr⟩, hall⟩ := hx
  constructor
  · obtain ⟨a, rfl, ha⟩ := hall r hr
    obtain ⟨r', hr'⟩ := (hf a ha).1
    exact ⟨r', Or.inl ⟨a, hr, hr'⟩⟩
  · rintro r' (⟨a, ha, h⟩ | ⟨m, hm, -⟩ | ⟨m, hm, -⟩)
    · obtain ⟨a', e, hq⟩ := hall _ ha
      injection e with e
      subst e
      exact (hf a hq).2 r' h
    · obtain ⟨a', e, -⟩ := hall _ hm
      cases e
    · obtain ⟨a', e, -⟩ := hall _ hm
      cases e

/-! ## row 0 -/

theorem row0_spec {lmax n j : ℕ} {d dd : A2} (hj : 1 ≤ j) (hn : n ≤ j) (hjl : j ≤ 2 * lmax) (h1 : 0 < d.n1) (h2 : n < d.n2)
    (h1' : 0 < dd.n1) (h2' : n < dd.n2) (hr : HRow d n (j - 1) 0) :
    ∃ d', row0 (sqTab lmax) n j d dd = ok d' ∧ d'.n1 = dd.n1 ∧ d'.n2 = dd.n2 ∧ HRow d' n j 0 := by
  unfold row0
  rw [A2.get_ok' 0 0 (by omega) (by omega) (by omega) (by omega)]
  simp only [ok_bind]
  rw [A2.put_ok' _ 0 0 (by omega) (by omega) (by omega) (by omega)]
  simp only [ok_bind]
  obtain ⟨r, hrr, e1, e2, hdone⟩ := forN_inv n (fun t (dd : A2) => do
    let sj ← rd (sqTab lmax) j
    let sji ← rd (sqTab lmax) ((j : ℤ) - ((t : ℤ) + 1))
    let si ← rd (sqTab lmax) ((t : ℤ) + 1)
    let x ← d.get 0 ((t : ℤ) + 1)
    let y ← d.get 0 ((t : ℤ) + 1 - 1)
    dd.put 0 ((t : ℤ) + 1) (pq / (j : ℝ) * sj * (sji * x - si * y))) (dd.upd 0 0 (pq * d.v 0 0))
    (fun t r => r.n1 = dd.n1 ∧ r.n2 = dd.n2 ∧ ∀ i ≤ t, r.v 0 i = W pq pq j 0 i)
    (by
      refine ⟨rfl, rfl, fun i hi => ?_⟩
      obtain rfl : i = 0 := by omega
      rw [A2.upd_self, hr 0 (by omega)]
      exact W_top0 hj)
    (by
      rintro t r ht ⟨e1, e2, hdone⟩
      rw [rd_sq j rfl hjl, rd_sq (j - (t + 1)) (by omega) (by omega), rd_sq (t + 1) (by omega) (by omega)]
      simp only [ok_bind]
      rw [A2.get_ok' 0 (t + 1) (by omega) (by omega) (by omega) (by omega)]
      simp only [ok_bind]
      rw [A2.get_ok' 0 t (by omega) (by omega) (by omega) (by omega)]
      simp only [ok_bind]
      rw [A2.put_ok' _ 0 (t + 1) (by omega) (by omega) (by omega) (by omega)]
      refine ⟨_, rfl, e1, e2, fun i hi => ?_⟩
      by_cases hit : i = t + 1
      · subst hit
        rw [A2.upd_self, hr _ (by omega), hr _ (by omega)]
        have h := W_top hj (i := t + 1) (by omega)
        rw [show t + 1 - 1 = t by omega] at h
        exact h
      · rw [A2.upd_ne _ _ (Or.inr hit)]
        exact hdone i (by omega))
  exact ⟨r, hrr, e1, e2, hdone⟩

/-! ## the body of the parallel loop -/

section
variable {α β : Type}

theorem run_rd (l : Cell) (f : ℝ → Prog Cell ℝ β) (m : Cell → ℝ) : run (Prog.rdP l >>= f) m = run (f (m l)) m := rfl
theorem run_wr (l : Cell) (v : ℝ) (f : Unit → Prog Cell ℝ β) (m : Cell → ℝ) :
    run (Prog.wrP l v >>= f) m = run (f ()) (Function.update m l v) := by
  show run (Prog.bind _ _) m = _
  simp only [Prog.wrP, Prog.bind, run]
  congr!
theorem run_lift {r : Res α} {a : α} (h : r = ok a) (f : α → Prog Cell ℝ β) (m : Cell → ℝ) :
    run (Prog.lift r >>= f) m = run (f a) m := by subst h; rfl

theorem stays_lift {W R : Set Cell} {r : Res α} {f : α → Prog Cell ℝ β} (h : ∀ a, r = ok a → Stays W R (f a)) : Stays W R (Prog.lift r >>= f) := by
  cases r with
  | ok a => exact h a rfl
  | throw e => trivial
  | ub e => trivial
theorem stays_rd {W R : Set Cell} {l : Cell} (h : l ∈ W ∨ l ∈ R) {f : ℝ → Prog Cell ℝ β} (hf : ∀ a, Stays W R (f a)) :
    Stays W R (Prog.rdP l >>= f) := Stays.bind' hf ⟨h, fun _ => trivial⟩
theorem stays_wr {W R : Set Cell} {l : Cell} (h : l ∈ W) {v : ℝ} {f : Unit → Prog Cell ℝ β} (hf : ∀ a, Stays W R (f a)) :
    Stays W R (Prog.wrP l v >>= f) := Stays.bind' hf ⟨h, trivial⟩
end

theorem entry_ok {w : Bool} {n1 n2 : ℕ} {k i : ℤ} (k' i' : ℕ) (ek : k = k') (ei : i = i') (hk : k' < n1) (hi : i' < n2) :
    entry w n1 n2 k i = ok (w, k', i') := by
  subst ek ei
  unfold entry; rw [if_pos (by omega)]; rfl

theorem entry_eq {w : Bool} {n1 n2 : ℕ} {k i : ℤ} {e : Cell} (h : entry w n1 n2 k i = ok e) : e = (w, k.toNat, i.toNat) := by
  unfold entry at h
  split at h
  · injection h with h; exact h.symm
  · cases h

/-- Row `k` of `dd`. -/
def rowSet (k : ℕ) : Set Cell := {l | l.1 = true ∧ l.2.1 = k}
/-- The table `d`. -/
def dSet : Set Cell := {l | l.1 = false}

theorem d_mem (W : Set Cell) (k i : ℕ) : ((false, k, i) : Cell) ∈ W ∨ ((false, k, i) : Cell) ∈ dSet := Or.inr rfl
theorem row_mem {k : ℕ} (i : ℕ) : ((true, (k : ℤ).toNat, i) : Cell) ∈ rowSet k := ⟨rfl, by simp⟩

theorem row_stays (sqt : List ℝ) (z : Sizes) (n j k : ℕ) : Stays (rowSet k) dSet (rowP sqt z n j k) := by
  unfold rowP
  refine stays_lift fun _ _ => stays_lift fun _ _ => stays_lift fun _ h1 => ?_
  rw [entry_eq h1]
  refine stays_rd (d_mem _ _ _) fun _ => stays_lift fun _ h2 => ?_
  rw [entry_eq h2]
  refine stays_rd (d_mem _ _ _) fun _ => stays_lift fun _ _ => stays_lift fun _ h3 => ?_
  rw [entry_eq h3]
  refine stays_wr (row_mem _) fun _ => Stays.bind' (f := fun _ => .ret (ok ())) (fun _ => trivial) (Stays.forN _ (fun t _ q => ?_) _)
  unfold cellP
  refine stays_lift fun _ _ => stays_lift fun _ h1 => ?_
  rw [entry_eq h1]
  refine stays_wr (row_mem _) fun _ => stays_lift fun _ h2 => ?_
  rw [entry_eq h2]
  refine stays_rd (d_mem _ _ _) fun _ => stays_lift fun _ h3 => ?_
  rw [entry_eq h3]
  exact stays_rd (d_mem _ _ _) fun _ => stays_lift fun _ _ => stays_rd (Or.inl (row_mem _)) fun _ => stays_wr (row_mem _) fun _ => trivial

/-- Tables large enough for the step. -/
structure Fits (z : Sizes) (n : ℕ) : Prop where
  a1 : n < z.a1
  a2 : n < z.a2
  b1 : n < z.b1
  b2 : n < z.b2

theorem run_row {lmax n j k : ℕ} {z : Sizes} (hz : Fits z n) (hk : 1 ≤ k) (hkn : k ≤ n) (hnj : n < j) (hjl : j ≤ 2 * lmax) {m : Cell → ℝ}
    (hr : ∀ k ≤ n, ∀ i ≤ n, m (false, k, i) = W pq pq (j - 1) k i) :
    ∃ m', run (rowP (sqTab lmax) z n j k) m = (ok (), m') ∧ (∀ i ≤ n, m' (true, k, i) = W pq pq j k i) ∧ ∀ l ∉ rowSet k, m' l = m l := by
  obtain ⟨za1, za2, zb1, zb2⟩ := hz
  unfold rowP
  rw [run_lift (rd_sq (j - k) (by omega) (by omega)), run_lift (rd_sq k rfl (by omega))]
  dsimp only
  rw [run_lift (entry_ok (i := 0) k 0 rfl rfl (by omega) (by omega)), run_rd,
    run_lift (entry_ok (i := 0) (k - 1) 0 (by omega) rfl (by omega) (by omega)), run_rd,
    run_lift (rd_sq j rfl hjl), run_lift (entry_ok (i := 0) k 0 rfl rfl (by omega) (by omega)), run_wr]
  rw [hr k hkn 0 (by omega), hr (k - 1) (by omega) 0 (by omega)]
  set s1 := √((j - k : ℕ) : ℝ) * (pq / (j : ℝ)) with hs1
  set s2 := √(k : ℝ) * (pq / (j : ℝ)) with hs2
  set m0 := Function.update m (true, k, 0) (√(j : ℝ) * (s1 * W pq pq (j - 1) k 0 + s2 * W pq pq (j - 1) (k - 1) 0)) with hm0
  have key : ∀ t ≤ n, ∃ m', run (Prog.forN t (cellP (sqTab lmax) z j k s1 s2) (s1 * W pq pq (j - 1) k 0, s2 * W pq pq (j - 1) (k - 1) 0)) m0 =
      (ok (s1 * W pq pq (j - 1) k t, s2 * W pq pq (j - 1) (k - 1) t), m') ∧ (∀ i ≤ t, m' (true, k, i) = W pq pq j k i) ∧
        ∀ l ∉ rowSet k, m' l = m l := by
    intro t
    induction t with
    | zero =>
      intro _
      refine ⟨m0, rfl, fun i hi => ?_, fun l hl => ?_⟩
      · obtain rfl : i = 0 := by omega
        rw [hm0, Function.update_self, hs1, hs2, ← W_in0 (show k < j by omega)]
        ring
      · rw [hm0, Function.update_of_ne]
        rintro rfl
        exact hl ⟨rfl, rfl⟩
    | succ t ih =>
      intro ht
      obtain ⟨m1, e1, hd, ho⟩ := ih (by omega)
      have hf : ∀ k' i', m1 (false, k', i') = m (false, k', i') := fun k' i' => ho _ (fun h => by simpa [rowSet] using h)
      refine ⟨Function.update m1 (true, k, t + 1) (√((t + 1 : ℕ) : ℝ) * (s2 * W pq pq (j - 1) (k - 1) t - s1 * W pq pq (j - 1) k t) +
        √((j - (t + 1) : ℕ) : ℝ) * (s1 * W pq pq (j - 1) k (t + 1) + s2 * W pq pq (j - 1) (k - 1) (t + 1))), ?_, ?_, ?_⟩
      · show run (Prog.bind _ _) m0 = _
        rw [run_bind_ok e1]
        unfold cellP
        rw [run_lift (rd_sq (t + 1) (by omega) (by omega)), run_lift (entry_ok k (t + 1) rfl (by omega) (by omega) (by omega)), run_wr,
          run_lift (entry_ok k (t + 1) rfl (by omega) (by omega) (by omega)), run_rd,
          run_lift (entry_ok (k - 1) (t + 1) (by omega) (by omega) (by omega) (by omega)), run_rd,
          run_lift (rd_sq (j - (t + 1)) (by omega) (by omega)), run_rd, run_wr]
        rw [Function.update_of_ne (by simp), Function.update_of_ne (by simp), Function.update_self, Function.update_idem, hf, hf,
          hr k hkn _ ht, hr (k - 1) (by omega) _ ht]
        rfl
      · intro i hi
        by_cases hit : i = t + 1
        · subst hit
          rw [Function.update_self, ← W_in (show k < j by omega) (show t + 1 ≤ j by omega), hs1, hs2, show t + 1 - 1 = t by omega]
          ring
        · rw [Function.update_of_ne (by simpa using hit)]
          exact hd i (by omega)
      · intro l hl
        rw [Function.update_of_ne]
        · exact ho l hl
        · rintro rfl
          exact hl ⟨rfl, rfl⟩
  obtain ⟨m', e, h1, h2⟩ := key n le_rfl
  refine ⟨m', ?_, h1, h2⟩
  rw [run_bind_ok' e]
  rfl

/-! ## the region -/

/-- No thread-specific shared data. -/
def none' : ℕ → Set Cell := fun _ => ∅

/-- The iterations of the loop work on separate rows, if the matrix of spin `(j-1)/2` is in `d`. -/
theorem row_memory {lmax n j : ℕ} {z : Sizes} (hz : Fits z n) (hnj : n < j) (hjl : j ≤ 2 * lmax) {d : A2}
    (hr : ∀ k ≤ n, HRow d n (j - 1) k) : ∀ (xs : List ℕ), (∀ k ∈ xs, 1 ≤ k ∧ k ≤ n) → ∀ m : Cell → ℝ, (∀ k i, m (false, k, i) = d.v k i) →
    ∃ m', run (Prog.forL xs (fun k _ => rowP (sqTab lmax) z n j k) ()) m = (ok (), m') ∧ (∀ k i, m' (false, k, i) = d.v k i) ∧
      ∀ k, ∀ i ≤ n, m' (true, k, i) = if k ∈ xs then W pq pq j k i else m (true, k, i)
  | [], _, m, hm => ⟨m, rfl, hm, fun k i _ => by simp⟩
  | x :: xs, hx, m, hm => by
    have hx0 := hx x List.mem_cons_self
    obtain ⟨m1, e1, h1, o1⟩ := run_row hz hx0.1 hx0.2 hnj hjl (m := m) (fun k hk i hi => by rw [hm, hr k hk i hi])
    obtain ⟨m2, e2, h2, o2⟩ := row_memory hz hnj hjl hr xs (fun k hk => hx k (List.mem_cons_of_mem _ hk)) m1 (fun k i => by
      rw [o1 _ (fun h => by simpa [rowSet] using h), hm])
    refine ⟨m2, ?_, h2, fun k i hi => ?_⟩
    · show run (Prog.bind _ _) m = _
      rw [run_bind_ok e1, e2]
    · rw [o2 k i hi]
      by_cases hk : k ∈ xs
      · simp [hk]
      · rw [if_neg hk]
        by_cases hkx : k = x
        · subst hkx
          simp [h1 i hi]
        · rw [o1 _ (fun h => hkx h.2), if_neg (by simp [hk, hkx])]

/-- The body is defined in every memory. -/
theorem body_ok {lmax n j : ℕ} {z : Sizes} (hz : Fits z n) {k : ℕ} (hk : 1 ≤ k) (hkn : k ≤ n) (hnj : n < j) (hjl : j ≤ 2 * lmax) (m : Cell → ℝ) :
    (run (rowP (sqTab lmax) z n j k) m).1 = ok () := by
  obtain ⟨za1, za2, zb1, zb2⟩ := hz
  unfold rowP
  rw [run_lift (rd_sq (j - k) (by omega) (by omega)), run_lift (rd_sq k rfl (by omega))]
  dsimp only
  rw [run_lift (entry_ok (i := 0) k 0 rfl rfl (by omega) (by omega)), run_rd,
    run_lift (entry_ok (i := 0) (k - 1) 0 (by omega) rfl (by omega) (by omega)), run_rd,
    run_lift (rd_sq j rfl hjl), run_lift (entry_ok (i := 0) k 0 rfl rfl (by omega) (by omega)), run_wr]
  generalize √((j - k : ℕ) : ℝ) * (pq / (j : ℝ)) = s1
  generalize √(k : ℝ) * (pq / (j : ℝ)) = s2
  generalize Function.update m (true, k, 0) _ = m0
  generalize (s1 * m (false, k, 0), s2 * m (false, k - 1, 0)) = q0
  have key : ∀ t ≤ n, ∃ q m', run (Prog.forN t (cellP (sqTab lmax) z j k s1 s2) q0) m0 = (ok q, m') := by
    intro t
    induction t with
    | zero => exact fun _ => ⟨q0, m0, rfl⟩
    | succ t ih =>
      intro ht
      obtain ⟨q, m1, e1⟩ := ih (by omega)
      refine ⟨(s1 * m1 (false, k, t + 1), s2 * m1 (false, k - 1, t + 1)), Function.update m1 (true, k, t + 1) (√((t + 1 : ℕ) : ℝ) * (q.2 - q.1) +
        √((j - (t + 1) : ℕ) : ℝ) * (s1 * m1 (false, k, t + 1) + s2 * m1 (false, k - 1, t + 1))), ?_⟩
      show run (Prog.bind _ _) m0 = _
      rw [run_bind_ok e1]
      unfold cellP
      rw [run_lift (rd_sq (t + 1) (by omega) (by omega)), run_lift (entry_ok k (t + 1) rfl (by omega) (by omega) (by omega)), run_wr,
        run_lift (entry_ok k (t + 1) rfl (by omega) (by omega) (by omega)), run_rd,
        run_lift (entry_ok (k - 1) (t + 1) (by omega) (by omega) (by omega) (by omega)), run_rd,
        run_lift (rd_sq (j - (t + 1)) (by omega) (by omega)), run_rd, run_wr]
      rw [Function.update_of_ne (by simp), Function.update_of_ne (by simp), Function.update_self, Function.update_idem]
      rfl
  obtain ⟨q, m', e⟩ := key n le_rfl
  rw [run_bind_ok' e]
  rfl

theorem loop_separate {lmax n j : ℕ} {z : Sizes} (hz : Fits z n) (hnj : n < j) (hjl : j ≤ 2 * lmax) :
    Par.Separate none' (fun _ : Unit => True) (rowLoop (sqTab lmax) z n j) := by
  have hmem : ∀ {k}, k ∈ (rowLoop (sqTab lmax) z n j).iters → 1 ≤ k ∧ k ≤ n := by
    intro k hk
    have := List.mem_range'_1.mp (show k ∈ List.range' 1 n from hk)
    omega
  refine ⟨rowSet, dSet, fun k m => (run (rowP (sqTab lmax) z n j k) m).2, Par.LoopOK.of (s0 := ()) trivial (u := 1) rfl List.nodup_range'
    (fun _ _ => trivial) (fun _ s _ _ => ⟨s, trivial, rfl⟩) (fun t k _ s => (row_stays _ z n j k).mono (fun _ h => Or.inl h))
    (fun i _ k _ hik l hl hl' => hik (hl.2.symm.trans hl'.2)) (fun _ _ _ _ _ h => h) (fun i _ l hl hl' => ?_)
    (fun _ _ _ _ h => absurd h (by simp [none'])) (fun _ _ h _ => h)
    (fun t k hk s m _ => ⟨(), trivial, body_ok hz (hmem hk).1 (hmem hk).2 hnj hjl m, fun _ _ => rfl⟩)⟩
  have h1 : l.1 = true := hl.1
  have h2 : l.1 = false := hl'
  rw [h1] at h2
  cases h2

theorem region_spec {lmax n j : ℕ} {d dd : A2} (hz : Fits ⟨d.n1, d.n2, dd.n1, dd.n2⟩ n) (hnj : n < j) (hjl : j ≤ 2 * lmax)
    (hr : ∀ k ≤ n, HRow d n (j - 1) k) (h0 : HRow dd n j 0) :
    ND.All (region (sqTab lmax) n j d dd) (fun d' => d'.n1 = dd.n1 ∧ d'.n2 = dd.n2 ∧ ∀ k ≤ n, HRow d' n j k) := by
  have hs := loop_separate (lmax := lmax) hz hnj hjl
  set lp := rowLoop (sqTab lmax) ⟨d.n1, d.n2, dd.n1, dd.n2⟩ n j with hlp
  have hall : ∀ l ∈ [lp], Par.Separate none' (fun _ : Unit => True) l := by
    intro l hl
    rw [List.mem_singleton] at hl
    subst hl
    exact hs
  have hdeal : ∀ {N : ℕ} {its : Fin N → List ℕ}, Par.Dealt its (List.range' 1 n) → Par.Deals [lp] [its] := fun h => .cons h .nil
  constructor
  · have hd : Par.Dealt (fun _ : Fin 1 => List.range' 1 n) (List.range' 1 n) := by simp [Par.Dealt]
    obtain ⟨m', s', he⟩ := Par.team_completes (hdeal hd) hall (mem d dd) (s := fun _ => ()) (fun _ => trivial)
    exact ⟨_, 1, _, hd, Or.inl ⟨m', s', he, rfl⟩⟩
  · rintro r ⟨N, its, hd, h | h | h⟩
    · obtain ⟨m', s', he, rfl⟩ := h
      refine ⟨_, rfl, rfl, rfl, ?_⟩
      obtain ⟨s1, m1, e1, h1⟩ := Par.team_eq_seq 1 (hdeal hd) hall (fun _ => trivial) he (s0 := ()) trivial (m0 := mem d dd) (fun _ _ => rfl)
      obtain ⟨m2, e2, -, h2⟩ := row_memory (lmax := lmax) hz hnj hjl hr (List.range' 1 n) (fun k hk => by
        have := List.mem_range'_1.mp hk; omega) (mem d dd) (fun _ _ => rfl)
      have e3 : run (Par.seqAll 1 [lp] ()) (mem d dd) = (ok (), m2) := by
        unfold Par.seqAll
        rw [run_bind_ok (p := (lp.pre 1 ()).bind (Prog.forL lp.iters (lp.body 1))) (m' := m2) (a := ()) e2]
        rfl
      have e := e1.symm.trans e3
      injection e with _ e
      subst e
      intro k hk i hi
      show m' (true, k, i) = _
      rw [h1 _ (fun _ h => h), h2 k i hi]
      by_cases k0 : k = 0
      · subst k0
        rw [if_neg (by simp)]
        exact h0 i hi
      · rw [if_pos (List.mem_range'_1.mpr (by omega))]
    · obtain ⟨c, hc, hb, -⟩ := h
      exact absurd hb (by
        have := Par.team_safe (hdeal hd) hall (fun _ => trivial) hc
        rintro (h | h)
        · exact this.1 h
        · exact this.2 h)
    · obtain ⟨N', hN⟩ := Par.team_bound (hdeal hd) hall (P := lp.phase its) (by simp [Par.phases]) (mem d dd) (fun _ => ())
      obtain ⟨c, hc⟩ := h.1 (N' + 1)
      have := hN _ _ hc
      omega

theorem half_spec {lmax n j : ℕ} {d : A2} (hn : 1 ≤ n) (hnj : n < j) (hjl : j ≤ 2 * lmax) (h1 : n < d.n1) (h2 : n < d.n2)
    (hr : ∀ k ≤ n, HRow d n (j - 1) k) :
    ND.All (half (sqTab lmax) n j d) (fun r => r.1.n1 = n + 2 ∧ r.1.n2 = n + 2 ∧ ∀ k ≤ n, HRow r.1 n j k) := by
  unfold half
  refine ND.All.bind (Q := fun dd => dd.n1 = n + 2 ∧ dd.n2 = n + 2) (ND.All.any (fun _ => ⟨rfl, rfl⟩)) (fun dd hdd => ?_)
  obtain ⟨dd1, e1, f1, f2, f3⟩ := row0_spec (lmax := lmax) (n := n) (j := j) (d := d) (dd := dd) (by omega) (by omega) hjl (by omega) h2
    (by omega) (by omega) (hr 0 (by omega))
  refine ND.All.bind (Q := fun x => x = dd1) (ND.All.det e1 rfl) (fun x hx => ?_)
  subst hx
  refine ND.All.bind (region_spec ⟨h1, h2, by simp only; omega, by simp only; omega⟩ hnj hjl hr f3) (fun y hy => ?_)
  exact ND.All.det rfl ⟨by rw [hy.1]; omega, by rw [hy.2.1]; omega, hy.2.2⟩

/-! ## calls -/

/-- What holds after `n + 1` calls of the parallel class. -/
structure OGood (lmax n : ℕ) (r : HRec) : Prop where
  hsq : r.sqt = sqTab lmax
  h1 : n + 1 < r.d.n1
  h2 : n + 1 < r.d.n2
  hn : r.n = n
  rows : ∀ k ≤ n, HRow r.d n (2 * n) k

theorem omp_step {lmax n : ℕ} {r : HRec} (h : OGood lmax n r) (hn : n + 1 ≤ lmax ∨ n = 0) : ND.All r.omp (OGood lmax (n + 1)) := by
  obtain ⟨hsq, h1, h2, hn', rows⟩ := h
  unfold HRec.omp
  refine ND.All.bind (Q := fun e : A2 × A2 => n + 2 < e.1.n1 ∧ n + 2 < e.1.n2 ∧ ∀ k ≤ n + 1, HRow e.1 (n + 1) (2 * (n + 1)) k) ?_
    (fun e he => ND.All.det rfl ⟨hsq, he.1, he.2.1, by simp only; omega, he.2.2⟩)
  unfold ompTables
  rw [if_neg (by omega), hsq]
  by_cases h0 : n = 0
  · subst h0
    rw [if_pos (by omega)]
    unfold ompFirst
    refine ND.All.bind (Q := fun d => d.n1 = 3 ∧ d.n2 = 3) (ND.All.any (fun _ => ⟨rfl, rfl⟩)) (fun d hd => ?_)
    obtain ⟨d1, e1, f1, f2, f3⟩ := first_spec (d := d) (by omega) (by omega)
    refine ND.All.bind (Q := fun x => x = d1) (ND.All.det e1 rfl) (fun x hx => ?_)
    subst hx
    exact ND.All.det rfl ⟨by simp only; omega, by simp only; omega, f3⟩
  · rw [if_neg (by omega), show (r.n + 1).toNat = n + 1 by omega]
    unfold ompStep
    obtain ⟨a, ha, a1, a2, ar⟩ := pad_spec (n := n + 1) (d := r.d) (by omega) (by omega) (by omega) (fun k hk => rows k (by omega))
    refine ND.All.bind (Q := fun x => x = a) (ND.All.det ha rfl) (fun x hx => ?_)
    subst hx
    refine ND.All.bind (half_spec (lmax := lmax) (n := n + 1) (j := 2 * (n + 1) - 1) (by omega) (by omega) (by omega) (by omega) (by omega) ar)
      (fun y hy => ?_)
    obtain ⟨x, hx⟩ := half_spec (lmax := lmax) (n := n + 1) (j := 2 * (n + 1)) (d := y.1) (by omega) (by omega) (by omega)
      (by rw [hy.1]; omega) (by rw [hy.2.1]; omega) (by exact hy.2.2)
    refine ⟨x, fun r hr => ?_⟩
    obtain ⟨b, e, g1, g2, g3⟩ := hx r hr
    exact ⟨b, e, by omega, by omega, g3⟩

theorem omp_calls (lmax : ℕ) {n : ℕ} (hn : n ≤ max lmax 1) : ND.All (ompCalls lmax (n + 1)) (OGood lmax n) := by
  induction n with
  | zero =>
    unfold ompCalls ompCalls
    refine ND.All.bind (Q := fun r => ∃ junk junk', r = HRec.new lmax junk junk') (ND.All.any (fun b => ⟨b.1, b.2, rfl⟩)) (fun r hr => ?_)
    obtain ⟨junk, junk', rfl⟩ := hr
    unfold HRec.omp ompTables
    refine ND.All.bind (Q := fun e : A2 × A2 => e = ((HRec.new lmax junk junk').d.upd 0 0 1, (HRec.new lmax junk junk').dd)) ?_
      (fun e he => ?_)
    · rw [if_pos (by simp [HRec.new])]
      refine ND.All.det (a := ((HRec.new lmax junk junk').d.upd 0 0 1, (HRec.new lmax junk junk').dd)) ?_ rfl
      rw [A2.put_ok' (k := 0) (i := 0) _ 0 0 rfl rfl (by simp [HRec.new]) (by simp [HRec.new])]
      rfl
    · subst he
      exact ND.All.det rfl ⟨rfl, by simp [HRec.new], by simp [HRec.new], rfl, zero_rows⟩
  | succ n ih =>
    exact ND.All.bind (ih (by omega)) (fun r hr => omp_step hr (by omega))

end Verif.HalfPi
