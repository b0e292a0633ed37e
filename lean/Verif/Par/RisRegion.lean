import Verif.Par.RotRegion

/-!
# The parallel loop of the Risbo recursion (C78): threads, loads and stores

levels/cxxsupport/wigner.cc:245-260 (`wigner_d_risbo_openmp::recurse`).  The arithmetic is arbitrary.
-/

namespace Verif.RisPar

open Verif Res
open Verif.Par (Prog run Stays run_bind_ok run_bind_ok')

/-- The shared doubles: entries of `d` (`false`) and `dd` (`true`). -/
abbrev Cell := Bool × ℕ × ℕ

/-- The sizes of the two tables, the numbers `p`, `q`, `xj = 1./j` and the table of square roots (to which no thread stores). -/
structure Inputs (V : Type) where
  a1 : ℕ
  a2 : ℕ
  b1 : ℕ
  b2 : ℕ
  p : V
  q : V
  xj : V
  sqt : List V

/-- `d[k][i]` or `dd[k][i]` of a table with `n1 × n2` entries. -/
def entry (w : Bool) (n1 n2 : ℕ) (k i : ℤ) : Res Cell :=
  if 0 ≤ k ∧ k < n1 ∧ 0 ≤ i ∧ i < n2 then ok (w, k.toNat, i.toNat) else ub "arr2 access out of bounds"

section
variable {V : Type} [Add V] [Sub V] [Mul V] [Neg V]

/-- The inner loop for `i = t + 1`, wigner.cc:253-255. -/
def cellP (r : Inputs V) (j k : ℕ) (t1 t2 t3 t4 : V) (t : ℕ) : Prog Cell V Unit := do
  let i : ℤ := (t : ℤ) + 1
  let sji ← Prog.lift (rd r.sqt ((j : ℤ) - i))
  let si ← Prog.lift (rd r.sqt i)
  let c1 ← Prog.lift (entry false r.a1 r.a2 k i)
  let a ← Prog.rdP c1
  let c2 ← Prog.lift (entry false r.a1 r.a2 k (i - 1))
  let b ← Prog.rdP c2
  let c3 ← Prog.lift (entry false r.a1 r.a2 ((k : ℤ) - 1) i)
  let a' ← Prog.rdP c3
  let c4 ← Prog.lift (entry false r.a1 r.a2 ((k : ℤ) - 1) (i - 1))
  let b' ← Prog.rdP c4
  let e ← Prog.lift (entry true r.b1 r.b2 k i)
  Prog.wrP e (t1 * sji * a - t2 * si * b + t3 * sji * a' + t4 * si * b')

/-- The body of the loop over `k`, wigner.cc:250-257. -/
def rowP (r : Inputs V) (j k : ℕ) : Prog Cell V Unit := do
  let sjk ← Prog.lift (rd r.sqt ((j : ℤ) - k))
  let sk ← Prog.lift (rd r.sqt k)
  let t1 := r.xj * sjk * r.q
  let t2 := r.xj * sjk * r.p
  let t3 := r.xj * sk * r.p
  let t4 := r.xj * sk * r.q
  let sj ← Prog.lift (rd r.sqt j)
  let c1 ← Prog.lift (entry false r.a1 r.a2 k 0)
  let a ← Prog.rdP c1
  let c2 ← Prog.lift (entry false r.a1 r.a2 ((k : ℤ) - 1) 0)
  let b ← Prog.rdP c2
  let e ← Prog.lift (entry true r.b1 r.b2 k 0)
  Prog.wrP e (r.xj * sj * (r.q * sjk * a + r.p * sk * b))
  let _ ← Prog.forN (j - 1) (fun t _ => cellP r j k t1 t2 t3 t4 t) ()
  let c3 ← Prog.lift (entry false r.a1 r.a2 k ((j : ℤ) - 1))
  let a' ← Prog.rdP c3
  let c4 ← Prog.lift (entry false r.a1 r.a2 ((k : ℤ) - 1) ((j : ℤ) - 1))
  let b' ← Prog.rdP c4
  let e' ← Prog.lift (entry true r.b1 r.b2 k j)
  Prog.wrP e' (-t2 * sj * a' + t4 * sj * b')

/-- The work-shared loop over rows `1 … n`, wigner.cc:245-249 (`k` is private to each thread). -/
def rowLoop (r : Inputs V) (n j : ℕ) : Par.Loop Cell V Unit where
  pre _ s := .ret (ok s)
  iters := List.range' 1 n
  body _ k _ := rowP r j k

/-! ## Specification -/

/-- What half step `j` computes for entry `(k, i)` of `dd` from rows `k` and `k-1` of `d`; `s m` is the square root of `m`. -/
def value (p q xj : V) (s : ℕ → V) (j : ℕ) (d : ℕ → ℕ → V) (k i : ℕ) : V :=
  let t1 := xj * s (j - k) * q
  let t2 := xj * s (j - k) * p
  let t3 := xj * s k * p
  let t4 := xj * s k * q
  if i = 0 then xj * s j * (q * s (j - k) * d k 0 + p * s k * d (k - 1) 0)
  else if i < j then t1 * s (j - i) * d k i - t2 * s i * d k (i - 1) + t3 * s (j - i) * d (k - 1) i + t4 * s i * d (k - 1) (i - 1)
  else -t2 * s j * d k (j - 1) + t4 * s j * d (k - 1) (j - 1)

/-- The accesses of half step `j` on rows `1 … n` are within bounds; `s m` is the entry `m` of the table of square roots. -/
structure InBounds (r : Inputs V) (n j : ℕ) (s : ℕ → V) : Prop where
  hn : n ≤ j
  hj : 1 ≤ j
  ha1 : n < r.a1
  ha2 : j < r.a2
  hb1 : n < r.b1
  hb2 : j < r.b2
  hs : ∀ m : ℕ, m ≤ j → rd r.sqt m = ok (s m)

/-! ## Proofs -/

section prog
variable {α β : Type}

theorem run_rd (l : Cell) (f : V → Prog Cell V β) (m : Cell → V) : run (Prog.rdP l >>= f) m = run (f (m l)) m := rfl
theorem run_wr (l : Cell) (v : V) (f : Unit → Prog Cell V β) (m : Cell → V) :
    run (Prog.wrP l v >>= f) m = run (f ()) (Function.update m l v) := by
  show run (Prog.bind _ _) m = _
  simp only [Prog.wrP, Prog.bind, run]
  congr!
theorem run_wr0 (l : Cell) (v : V) (m : Cell → V) : run (Prog.wrP l v) m = (ok (), Function.update m l v) := by
  simp only [Prog.wrP, run]
  congr!
theorem run_lift {r : Res α} {a : α} (h : r = ok a) (f : α → Prog Cell V β) (m : Cell → V) :
    run (Prog.lift r >>= f) m = run (f a) m := by subst h; rfl
theorem stays_lift {W R : Set Cell} {r : Res α} {f : α → Prog Cell V β} (h : ∀ a, r = ok a → Stays W R (f a)) : Stays W R (Prog.lift r >>= f) := by
  cases r with
  | ok a => exact h a rfl
  | throw e => trivial
  | ub e => trivial
theorem stays_rd {W R : Set Cell} {l : Cell} (h : l ∈ W ∨ l ∈ R) {f : V → Prog Cell V β} (hf : ∀ a, Stays W R (f a)) :
    Stays W R (Prog.rdP l >>= f) := Stays.bind' hf ⟨h, fun _ => trivial⟩
theorem stays_wr {W R : Set Cell} {l : Cell} (h : l ∈ W) {v : V} {f : Unit → Prog Cell V β} (hf : ∀ a, Stays W R (f a)) :
    Stays W R (Prog.wrP l v >>= f) := Stays.bind' hf ⟨h, trivial⟩
end prog

theorem entry_ok {w : Bool} {n1 n2 : ℕ} {k i : ℤ} (k' i' : ℕ) (ek : k = k') (ei : i = i') (hk : k' < n1) (hi : i' < n2) :
    entry w n1 n2 k i = ok (w, k', i') := by
  subst ek ei
  unfold entry; rw [if_pos (by omega)]; rfl

theorem entry_eq {w : Bool} {n1 n2 : ℕ} {k i : ℤ} {e : Cell} (h : entry w n1 n2 k i = ok e) : e = (w, k.toNat, i.toNat) := by
  unfold entry at h
  split at h
  · injection h with h; exact h.symm
  · cases h

/-- Row `k` of `dd`. -/
def rowSet (k : ℕ) : Set Cell := {l | l.1 = true ∧ l.2.1 = k}
/-- The table `d`. -/
def dSet : Set Cell := {l | l.1 = false}

theorem d_mem (W : Set Cell) (k i : ℕ) : ((false, k, i) : Cell) ∈ W ∨ ((false, k, i) : Cell) ∈ dSet := Or.inr rfl
theorem row_mem {k : ℕ} (i : ℕ) : ((true, (k : ℤ).toNat, i) : Cell) ∈ rowSet k := ⟨rfl, by simp⟩

theorem row_stays (r : Inputs V) (j k : ℕ) : Stays (rowSet k) dSet (rowP r j k) := by
  unfold rowP
  refine stays_lift fun _ _ => stays_lift fun _ _ => stays_lift fun _ _ => stays_lift fun _ h1 => ?_
  rw [entry_eq h1]
  refine stays_rd (d_mem _ _ _) fun _ => stays_lift fun _ h2 => ?_
  rw [entry_eq h2]
  refine stays_rd (d_mem _ _ _) fun _ => stays_lift fun _ h3 => ?_
  rw [entry_eq h3]
  refine stays_wr (row_mem _) fun _ => Stays.bind' (fun _ => ?_) (Stays.forN _ (fun t _ q => ?_) _)
  · refine stays_lift fun _ h1 => ?_
    rw [entry_eq h1]
    refine stays_rd (d_mem _ _ _) fun _ => stays_lift fun _ h2 => ?_
    rw [entry_eq h2]
    refine stays_rd (d_mem _ _ _) fun _ => stays_lift fun _ h3 => ?_
    rw [entry_eq h3]
    exact ⟨row_mem _, trivial⟩
  · unfold cellP
    refine stays_lift fun _ _ => stays_lift fun _ _ => stays_lift fun _ h1 => ?_
    rw [entry_eq h1]
    refine stays_rd (d_mem _ _ _) fun _ => stays_lift fun _ h2 => ?_
    rw [entry_eq h2]
    refine stays_rd (d_mem _ _ _) fun _ => stays_lift fun _ h3 => ?_
    rw [entry_eq h3]
    refine stays_rd (d_mem _ _ _) fun _ => stays_lift fun _ h4 => ?_
    rw [entry_eq h4]
    refine stays_rd (d_mem _ _ _) fun _ => stays_lift fun _ h5 => ?_
    rw [entry_eq h5]
    exact ⟨row_mem _, trivial⟩

variable {r : Inputs V} {n j : ℕ} {s : ℕ → V}

theorem rd_s (h : InBounds r n j s) {i : ℤ} (m : ℕ) (e : i = m) (hm : m ≤ j) : rd r.sqt i = ok (s m) := by
  subst e; exact h.hs m hm

/-- The body on row `k`: entry `i ≤ j` of the row gets the value computed from the table `d`, and nothing else changes. -/
theorem run_row (h : InBounds r n j s) {k : ℕ} (hk : 1 ≤ k) (hkn : k ≤ n) (M : Cell → V) :
    ∃ M', run (rowP r j k) M = (ok (), M') ∧
      ∀ w k' i, M' (w, k', i) = if w = true ∧ k' = k ∧ i ≤ j then value r.p r.q r.xj s j (fun a b => M (false, a, b)) k i else M (w, k', i) := by
  obtain ⟨hn, hj, za1, za2, zb1, zb2, hs⟩ := id h
  set d : ℕ → ℕ → V := fun a b => M (false, a, b) with hd
  unfold rowP
  rw [run_lift (rd_s h (j - k) (by omega) (by omega)), run_lift (rd_s h k rfl (by omega))]
  dsimp only
  rw [run_lift (rd_s h j rfl le_rfl), run_lift (entry_ok (i := 0) k 0 rfl rfl (by omega) (by omega)), run_rd,
    run_lift (entry_ok (i := 0) (k - 1) 0 (by omega) rfl (by omega) (by omega)), run_rd,
    run_lift (entry_ok (i := 0) k 0 rfl rfl (by omega) (by omega)), run_wr]
  set t1 := r.xj * s (j - k) * r.q with ht1
  set t2 := r.xj * s (j - k) * r.p with ht2
  set t3 := r.xj * s k * r.p with ht3
  set t4 := r.xj * s k * r.q with ht4
  have key : ∀ t ≤ j - 1, ∃ M', run (Prog.forN t (fun t _ => cellP r j k t1 t2 t3 t4 t) ())
      (Function.update M (true, k, 0) (r.xj * s j * (r.q * s (j - k) * M (false, k, 0) + r.p * s k * M (false, k - 1, 0)))) = (ok (), M') ∧
      ∀ w k' i, M' (w, k', i) = if w = true ∧ k' = k ∧ i ≤ t then value r.p r.q r.xj s j d k i else M (w, k', i) := by
    intro t
    induction t with
    | zero =>
      intro _
      refine ⟨_, rfl, fun w k' i => ?_⟩
      by_cases hc : w = true ∧ k' = k ∧ i ≤ 0
      · obtain ⟨rfl, rfl, hi⟩ := hc
        obtain rfl : i = 0 := by omega
        rw [Function.update_self, if_pos ⟨rfl, rfl, le_rfl⟩]
        unfold value
        simp [hd]
      · rw [if_neg hc, Function.update_of_ne]
        intro e
        apply hc
        injection e with e1 e2
        injection e2 with e2 e3
        exact ⟨e1, e2, by omega⟩
    | succ t ih =>
      intro ht
      obtain ⟨M1, e1, h1⟩ := ih (by omega)
      have hf : ∀ a b, M1 (false, a, b) = d a b := fun a b => by rw [h1, if_neg (by simp)]
      refine ⟨Function.update M1 (true, k, t + 1) (value r.p r.q r.xj s j d k (t + 1)), ?_, fun w k' i => ?_⟩
      · show run (Prog.bind _ _) _ = _
        rw [run_bind_ok e1]
        unfold cellP
        rw [run_lift (rd_s h (j - (t + 1)) (by omega) (by omega)), run_lift (rd_s h (t + 1) (by omega) (by omega)),
          run_lift (entry_ok k (t + 1) rfl (by omega) (by omega) (by omega)), run_rd,
          run_lift (entry_ok k t rfl (by omega) (by omega) (by omega)), run_rd,
          run_lift (entry_ok (k - 1) (t + 1) (by omega) (by omega) (by omega) (by omega)), run_rd,
          run_lift (entry_ok (k - 1) t (by omega) (by omega) (by omega) (by omega)), run_rd,
          run_lift (entry_ok k (t + 1) rfl (by omega) (by omega) (by omega)), run_wr0, hf, hf, hf, hf]
        unfold value
        rw [if_neg (by omega), if_pos (by omega)]
        rfl
      · by_cases hc : w = true ∧ k' = k ∧ i = t + 1
        · obtain ⟨rfl, rfl, rfl⟩ := hc
          rw [Function.update_self, if_pos ⟨rfl, rfl, le_rfl⟩]
        · rw [Function.update_of_ne (by simpa using hc), h1]
          by_cases hc' : w = true ∧ k' = k ∧ i ≤ t
          · rw [if_pos hc', if_pos ⟨hc'.1, hc'.2.1, by omega⟩]
          · rw [if_neg hc', if_neg]
            rintro ⟨a, b, c⟩
            rcases Nat.lt_or_ge t i with hti | hti
            · exact hc ⟨a, b, by omega⟩
            · exact hc' ⟨a, b, hti⟩
  obtain ⟨M1, e1, h1⟩ := key (j - 1) le_rfl
  have hf : ∀ a b, M1 (false, a, b) = d a b := fun a b => by rw [h1, if_neg (by simp)]
  refine ⟨Function.update M1 (true, k, j) (value r.p r.q r.xj s j d k j), ?_, fun w k' i => ?_⟩
  · rw [run_bind_ok' e1]
    rw [run_lift (entry_ok k (j - 1) rfl (by omega) (by omega) (by omega)), run_rd,
      run_lift (entry_ok (k - 1) (j - 1) (by omega) (by omega) (by omega) (by omega)), run_rd,
      run_lift (entry_ok k j rfl rfl (by omega) (by omega)), run_wr0, hf, hf]
    unfold value
    rw [if_neg (by omega), if_neg (by omega)]
  · by_cases hc : w = true ∧ k' = k ∧ i = j
    · obtain ⟨rfl, rfl, rfl⟩ := hc
      rw [Function.update_self, if_pos ⟨rfl, rfl, le_rfl⟩]
    · rw [Function.update_of_ne (by simpa using hc), h1]
      by_cases hc' : w = true ∧ k' = k ∧ i ≤ j - 1
      · rw [if_pos hc', if_pos ⟨hc'.1, hc'.2.1, by omega⟩]
      · rw [if_neg hc', if_neg]
        rintro ⟨a, b, c⟩
        rcases Nat.lt_or_ge (j - 1) i with hti | hti
        · exact hc ⟨a, b, by omega⟩
        · exact hc' ⟨a, b, hti⟩

theorem run_rows (h : InBounds r n j s) : ∀ (xs : List ℕ), (∀ k ∈ xs, 1 ≤ k ∧ k ≤ n) → ∀ M : Cell → V,
    ∃ M', run (Prog.forL xs (fun k _ => rowP r j k) ()) M = (ok (), M') ∧
      ∀ w k i, M' (w, k, i) = if w = true ∧ k ∈ xs ∧ i ≤ j then value r.p r.q r.xj s j (fun a b => M (false, a, b)) k i else M (w, k, i)
  | [], _, M => ⟨M, rfl, fun w k i => by simp⟩
  | x :: xs, hx, M => by
    have hx0 := hx x List.mem_cons_self
    obtain ⟨M1, e1, h1⟩ := run_row h hx0.1 hx0.2 M
    obtain ⟨M2, e2, h2⟩ := run_rows h xs (fun k hk => hx k (List.mem_cons_of_mem _ hk)) M1
    have hf : (fun a b => M1 (false, a, b)) = fun a b => M (false, a, b) := by
      funext a b; rw [h1, if_neg (by simp)]
    refine ⟨M2, ?_, fun w k i => ?_⟩
    · show run (Prog.bind _ _) M = _
      rw [run_bind_ok e1, e2]
    · rw [h2, hf, h1]
      by_cases hw : w = true ∧ i ≤ j
      · by_cases hk : k ∈ xs
        · rw [if_pos ⟨hw.1, hk, hw.2⟩, if_pos ⟨hw.1, List.mem_cons_of_mem _ hk, hw.2⟩]
        · rw [if_neg (by tauto)]
          by_cases hkx : k = x
          · subst hkx
            rw [if_pos ⟨hw.1, rfl, hw.2⟩, if_pos ⟨hw.1, List.mem_cons_self, hw.2⟩]
          · rw [if_neg (by tauto), if_neg (by simp [hk, hkx])]
      · rw [if_neg (by tauto), if_neg (by tauto), if_neg (by tauto)]

/-- No thread-specific shared data. -/
def noX : ℕ → Set Cell := fun _ => ∅

theorem row_separate (h : InBounds r n j s) : Par.Separate noX (fun _ : Unit => True) (rowLoop r n j) := by
  have hm : ∀ {k}, k ∈ (rowLoop r n j).iters → 1 ≤ k ∧ k ≤ n := by
    intro k hk
    have := List.mem_range'_1.mp (show k ∈ List.range' 1 n from hk)
    omega
  refine ⟨rowSet, dSet, fun k M => (run (rowP r j k) M).2, Par.LoopOK.of (s0 := ()) trivial (u := 1) rfl List.nodup_range'
    (fun _ _ => trivial) (fun _ s _ _ => ⟨s, trivial, rfl⟩) (fun _ k _ _ => (row_stays r j k).mono (fun _ h => Or.inl h))
    (fun i _ k _ hik l hl hl' => hik (hl.2.symm.trans hl'.2)) (fun _ _ _ _ _ h => h) (fun i _ l hl hl' => ?_)
    (fun _ _ _ _ h => absurd h (by simp [noX])) (fun _ _ h _ => h) (fun _ k hk _ M _ => ?_)⟩
  · have h1 : l.1 = true := hl.1
    have h2 : l.1 = false := hl'
    rw [h1] at h2
    cases h2
  · obtain ⟨M', e, -⟩ := run_row h (hm hk).1 (hm hk).2 M
    exact ⟨(), trivial, by show (run (rowP r j k) M).1 = _; rw [e], fun _ _ => rfl⟩

/-- Every end of the region, whatever the number of threads, the dealing of the rows, and the interleaving. -/
theorem row_ends (h : InBounds r n j s) {N : ℕ} {its : Fin N → List ℕ} (hd : Par.Dealt its (List.range' 1 n)) {M M' : Cell → V} {u u' : Fin N → Unit}
    (he : Par.Ends [(rowLoop r n j).phase its] M u M' u') (w : Bool) (k i : ℕ) :
    M' (w, k, i) = if w = true ∧ (1 ≤ k ∧ k ≤ n) ∧ i ≤ j then value r.p r.q r.xj s j (fun a b => M (false, a, b)) k i else M (w, k, i) := by
  have hall : ∀ lp ∈ [rowLoop r n j], Par.Separate noX (fun _ : Unit => True) lp := by
    intro lp hl
    rw [List.mem_singleton.mp hl]
    exact row_separate h
  have hd' : Par.Deals [rowLoop r n j] [its] := .cons hd .nil
  obtain ⟨s1, M1, e1, h1⟩ := Par.team_eq_seq 1 hd' hall (fun _ => trivial) he (s0 := ()) trivial (m0 := M) (fun _ _ => rfl)
  obtain ⟨M2, e2, h2⟩ := run_rows h (List.range' 1 n) (fun k hk => by have := List.mem_range'_1.mp hk; omega) M
  have e3 : run (Par.seqAll 1 [rowLoop r n j] ()) M = (ok (), M2) := by
    unfold Par.seqAll
    rw [run_bind_ok (p := ((rowLoop r n j).pre 1 ()).bind (Prog.forL (rowLoop r n j).iters ((rowLoop r n j).body 1))) (m' := M2) (a := ()) e2]
    rfl
  have e4 := e1.symm.trans e3
  injection e4 with _ e4
  subst e4
  have hk : (k ∈ List.range' 1 n) ↔ (1 ≤ k ∧ k ≤ n) := by rw [List.mem_range'_1]; omega
  rw [h1 _ (fun _ h => h), h2]
  simp only [hk]

end

end Verif.RisPar
