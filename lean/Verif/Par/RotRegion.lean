import Verif.Util.RotAlm
import Verif.Par.Region

/-!
# The parallel region of `rotate_alm` (C78): threads, loads and stores

levels/Healpix_cxx/alm_powspec_tools.cc:323-342 (one component), 386-408 (three components).  The arithmetic is arbitrary.
-/

namespace Verif.RotPar

open Verif Res Verif.Share
open Verif.Par (Prog run Stays run_bind_ok run_bind_ok')

/-- The shared doubles to which the region stores: real (`false`) or imaginary part of entry `m` of the table `almtmp` of component `c`. -/
abbrev RCell := ℕ × ℕ × Bool

/-- What the region only reads, and the bounds: `a c mm` is `xcomplex<double>(alm(l,mm))` of component `c`, `x mm` is `exppsi[mm]`, `d k i` is
`d[k][i]` (each fails if the access is out of bounds); the tables `almtmp` have `size` entries. -/
structure Inputs (V : Type) where
  a : ℕ → ℤ → Res (V × V)
  x : ℤ → Res (V × V)
  d : ℤ → ℤ → Res V
  l : ℕ
  size : ℕ

section
variable {V : Type} [Add V] [Sub V] [Mul V] [Neg V]

/-- Complex product, ls_xcomplex.h:136-137. -/
def cmul (a b : V × V) : V × V := (a.1 * b.1 - a.2 * b.2, a.1 * b.2 + a.2 * b.1)

/-- `flip ? -x : x` -/
def sgn (b : Bool) (x : V) : V := if b then -x else x

/-- Real or imaginary part of `almtmp[m]` of component `c`. -/
def tmpCell (size c : ℕ) (m : ℤ) (im : Bool) : Res RCell :=
  if 0 ≤ m ∧ m < size then ok (c, m.toNat, im) else ub "almtmp access out of bounds"

/-- `almtmp[m].re += t1.re*f1; almtmp[m].im += t1.im*f2`, alm_powspec_tools.cc:338, 402-404. -/
def accP (size : ℕ) (m : ℤ) (f1 f2 : V) (ct : ℕ × V × V) : Prog RCell V Unit := do
  let e ← Prog.lift (tmpCell size ct.1 m false)
  let x ← Prog.rdP e
  Prog.wrP e (x + ct.2.1 * f1)
  let e' ← Prog.lift (tmpCell size ct.1 m true)
  let y ← Prog.rdP e'
  Prog.wrP e' (y + ct.2.2 * f2)

/-- The body of the loop over `m`, alm_powspec_tools.cc:335-339, 398-405, for `m = lo + i`; private data: `flip2`. -/
def innerP (r : Inputs V) (ts : List (ℕ × V × V)) (mm : ℕ) (flip : Bool) (lo : ℤ) (i : ℕ) (flip2 : Bool) : Prog RCell V Bool := do
  let u ← Prog.lift (r.d ((r.l : ℤ) - mm) ((r.l : ℤ) - (lo + i)))
  let v ← Prog.lift (r.d ((r.l : ℤ) - mm) ((r.l : ℤ) + (lo + i)))
  let d1 := sgn flip2 u
  let d2 := sgn flip v
  let _ ← Prog.forL ts (fun ct _ => accP r.size (lo + i) (d1 + d2) (d1 - d2) ct) ()
  .ret (ok (!flip2))

/-- The numbers `t1` of the components `cs`, alm_powspec_tools.cc:331, 394-396. -/
def factors (r : Inputs V) (mm : ℕ) : List ℕ → Res (List (ℕ × V × V))
  | [] => ok []
  | c :: cs => do
    let a ← r.a c mm
    let x ← r.x mm
    let ts ← factors r mm cs
    ok ((c, cmul a x) :: ts)

/-- The body of the loop over `mm`, alm_powspec_tools.cc:330-341, 393-407, for `mm = i + 1`; private data: `flip`. -/
def outerP (r : Inputs V) (cs : List ℕ) (lo hi : ℤ) (i : ℕ) (flip : Bool) : Prog RCell V Bool := do
  let ts ← Prog.lift (factors r (i + 1) cs)
  let _ ← Prog.forN (hi - lo).toNat (innerP r ts (i + 1) flip lo) (decide ((((i : ℤ) + 1) + lo) % 2 = 1))
  .ret (ok (!flip))

/-- What thread `t` of `n` does, alm_powspec_tools.cc:324-342, 387-408. -/
def threadP (r : Inputs V) (cs : List ℕ) (n t : ℕ) : Prog RCell V Unit := do
  let s ← Prog.lift (calcShareGeneral 0 ((r.l : ℤ) + 1) n t)
  let _ ← Prog.forN r.l (outerP r cs s.1 s.2) true
  .ret (ok ())

/-- The region with `n` threads: thread `t` executes "iteration" `t` (`teamOf`). -/
def rotLoop (r : Inputs V) (cs : List ℕ) (n : ℕ) : Par.Loop RCell V Unit where
  pre _ s := .ret (ok s)
  iters := List.range n
  body _ t _ := threadP r cs n t

/-- Thread `t` has number `t`. -/
def teamOf (n : ℕ) : Fin n → List ℕ := fun t => [t.1]

/-! ## Specification -/

/-- What `mm` adds to the real (imaginary) part of `almtmp[m]`. -/
def incr (A : ℕ → ℕ → V × V) (X : ℕ → V × V) (D : ℕ → ℕ → V) (l c m : ℕ) (im : Bool) (mm : ℕ) : V :=
  let t1 := cmul (A c mm) (X mm)
  let d1 := sgn (decide ((mm + m) % 2 = 1)) (D (l - mm) (l - m))
  let d2 := sgn (decide (mm % 2 = 1)) (D (l - mm) (l + m))
  if im then t1.2 * (d1 - d2) else t1.1 * (d1 + d2)

/-- The contributions of `mm = 1, …, n` added one after the other to `x`. -/
def total (A : ℕ → ℕ → V × V) (X : ℕ → V × V) (D : ℕ → ℕ → V) (l c m : ℕ) (im : Bool) (x : V) (n : ℕ) : V :=
  (List.range' 1 n).foldl (fun s mm => s + incr A X D l c m im mm) x

/-- The accesses of the region for degree `l` are within bounds. -/
structure InBounds (r : Inputs V) (cs : List ℕ) (A : ℕ → ℕ → V × V) (X : ℕ → V × V) (D : ℕ → ℕ → V) : Prop where
  nodup : cs.Nodup
  ha : ∀ c ∈ cs, ∀ mm : ℕ, 1 ≤ mm → mm ≤ r.l → r.a c mm = ok (A c mm)
  hx : ∀ mm : ℕ, 1 ≤ mm → mm ≤ r.l → r.x mm = ok (X mm)
  hd : ∀ k i : ℕ, k < r.l → i ≤ 2 * r.l → r.d k i = ok (D k i)
  hsize : r.l < r.size

/-! ## Proofs -/

theorem shares (l n : ℕ) : ∃ lo hi : ℕ → ℤ, ∀ t < n, calcShareGeneral 0 ((l : ℤ) + 1) n t = ok (lo t, hi t) ∧ 0 ≤ lo t ∧ lo t ≤ hi t ∧ hi t ≤ (l : ℤ) + 1 := by
  by_cases hn : n = 0
  · exact ⟨fun _ => 0, fun _ => 0, fun t ht => by omega⟩
  obtain ⟨lo', hi', hok, hlo, hhi, hnext, hle, -⟩ := C29_calcShareGeneral_partition 0 ((l : ℤ) + 1) n (by omega) (by omega)
  have b1 : ∀ t : ℕ, t < n → 0 ≤ lo' t := by
    intro t
    induction t with
    | zero => intro _; simp [hlo]
    | succ t ih =>
      intro ht
      have := hnext t (by omega) (by omega)
      have := hle t (by omega) (by omega)
      have := ih (by omega)
      push_cast; omega
  have b2 : ∀ s t : ℕ, t + s + 1 = n → hi' t ≤ (l : ℤ) + 1 := by
    intro s
    induction s with
    | zero =>
      intro t ht
      rw [← hhi, show (n : ℤ) - 1 = t by omega]
    | succ s ih =>
      intro t ht
      have h1 := ih (t + 1) (by omega)
      have h2 := hnext t (by omega) (by omega)
      have h3 := hle (t + 1) (by omega) (by omega)
      push_cast at h1; omega
  exact ⟨fun t => lo' t, fun t => hi' t, fun t ht => ⟨hok t (by omega) (by omega), b1 t ht, hle t (by omega) (by omega), b2 (n - 1 - t) t (by omega)⟩⟩

/-- The entries of thread `t`. -/
def part (l n t : ℕ) : Set RCell := {e | ∃ lo hi, calcShareGeneral 0 ((l : ℤ) + 1) n t = ok (lo, hi) ∧ lo ≤ (e.2.1 : ℤ) ∧ (e.2.1 : ℤ) < hi}

theorem part_disj {l n t u : ℕ} (ht : t < n) (hu : u < n) (htu : t ≠ u) {e : RCell} (h : e ∈ part l n t) : e ∉ part l n u := by
  rintro ⟨lo', hi', e', h3, h4⟩
  obtain ⟨lo, hi, e1, h1, h2⟩ := h
  obtain ⟨L, H, hs⟩ := shares l n
  have hb := hs t ht
  rw [e1] at hb
  obtain ⟨hb1, hb2, hb3, hb4⟩ := hb
  injection hb1 with hb1
  have q1 : lo = L t := congrArg Prod.fst hb1
  have q2 : hi = H t := congrArg Prod.snd hb1
  obtain ⟨w, hw, ho⟩ := Risbo.owner (show 0 < n by omega) (m := (e.2.1 : ℤ)) (l := l) (by omega) (by omega)
  have a1 := (ho t ht lo hi e1).mp ⟨h1, h2⟩
  have a2 := (ho u hu lo' hi' e').mp ⟨h3, h4⟩
  omega

theorem part_cover {l n m : ℕ} (hn : 0 < n) (hm : m ≤ l) (c : ℕ) (im : Bool) : ∃ t < n, ((c, m, im) : RCell) ∈ part l n t := by
  obtain ⟨w, hw, ho⟩ := Risbo.owner hn (m := (m : ℤ)) (l := l) (by omega) (by omega)
  obtain ⟨L, H, hs⟩ := shares l n
  have h := (ho w hw (L w) (H w) (hs w hw).1).mpr rfl
  exact ⟨w, hw, L w, H w, (hs w hw).1, h.1, h.2⟩

section prog
variable {α β : Type}

theorem run_rd (l : RCell) (f : V → Prog RCell V β) (m : RCell → V) : run (Prog.rdP l >>= f) m = run (f (m l)) m := rfl
theorem run_wr (l : RCell) (v : V) (f : Unit → Prog RCell V β) (m : RCell → V) :
    run (Prog.wrP l v >>= f) m = run (f ()) (Function.update m l v) := by
  show run (Prog.bind _ _) m = _
  simp only [Prog.wrP, Prog.bind, run]
  congr!
theorem run_wr0 (l : RCell) (v : V) (m : RCell → V) : run (Prog.wrP l v) m = (ok (), Function.update m l v) := by
  simp only [Prog.wrP, run]
  congr!
theorem run_lift {r : Res α} {a : α} (h : r = ok a) (f : α → Prog RCell V β) (m : RCell → V) :
    run (Prog.lift r >>= f) m = run (f a) m := by subst h; rfl
theorem stays_lift {W R : Set RCell} {r : Res α} {f : α → Prog RCell V β} (h : ∀ a, r = ok a → Stays W R (f a)) : Stays W R (Prog.lift r >>= f) := by
  cases r with
  | ok a => exact h a rfl
  | throw e => trivial
  | ub e => trivial
theorem stays_rd {W R : Set RCell} {l : RCell} (h : l ∈ W ∨ l ∈ R) {f : V → Prog RCell V β} (hf : ∀ a, Stays W R (f a)) :
    Stays W R (Prog.rdP l >>= f) := Stays.bind' hf ⟨h, fun _ => trivial⟩
theorem stays_wr {W R : Set RCell} {l : RCell} (h : l ∈ W) {v : V} {f : Unit → Prog RCell V β} (hf : ∀ a, Stays W R (f a)) :
    Stays W R (Prog.wrP l v >>= f) := Stays.bind' hf ⟨h, trivial⟩
end prog

theorem tmpCell_eq {size c : ℕ} {m : ℤ} {im : Bool} {e : RCell} (h : tmpCell size c m im = ok e) : 0 ≤ m ∧ e = (c, m.toNat, im) := by
  unfold tmpCell at h
  split at h
  · injection h with h; exact ⟨by omega, h.symm⟩
  · cases h

theorem thread_stays (r : Inputs V) (cs : List ℕ) (n t : ℕ) : Stays (part r.l n t) ∅ (threadP r cs n t) := by
  unfold threadP
  refine stays_lift fun s hs => Stays.bind' (f := fun _ => .ret (ok ())) (fun _ => trivial) (Stays.forN _ (fun i hi q => ?_) _)
  unfold outerP
  refine stays_lift fun ts _ => Stays.bind' (f := fun _ => .ret (ok _)) (fun _ => trivial) (Stays.forN _ (fun j hj q => ?_) _)
  unfold innerP
  refine stays_lift fun u _ => stays_lift fun v _ => Stays.bind' (f := fun _ => .ret (ok _)) (fun _ => trivial) (Stays.forL _ (fun ct _ _ => ?_) _)
  unfold accP
  have hin : ∀ im e, tmpCell r.size ct.1 (s.1 + j) im = ok e → e ∈ part r.l n t := by
    intro im e he
    obtain ⟨h0, rfl⟩ := tmpCell_eq he
    exact ⟨s.1, s.2, hs, by dsimp only; omega, by dsimp only; omega⟩
  refine stays_lift fun e he => stays_rd (Or.inl (hin _ _ he)) fun _ => stays_wr (hin _ _ he) fun _ => stays_lift fun e' he' =>
    stays_rd (Or.inl (hin _ _ he')) fun _ => ⟨hin _ _ he', trivial⟩

theorem factors_ok {r : Inputs V} {A : ℕ → ℕ → V × V} {X : ℕ → V × V} {mm : ℕ} (hx : r.x mm = ok (X mm)) :
    ∀ {cs : List ℕ}, (∀ c ∈ cs, r.a c mm = ok (A c mm)) → factors r mm cs = ok (cs.map (fun c => (c, cmul (A c mm) (X mm))))
  | [], _ => rfl
  | c :: cs, h => by
    unfold factors
    rw [h c List.mem_cons_self]; simp only [ok_bind]
    rw [hx]; simp only [ok_bind]
    rw [factors_ok hx (fun c hc => h c (List.mem_cons_of_mem _ hc))]
    rfl

theorem run_acc {size m : ℕ} (hm : m < size) (f1 f2 : V) (T : ℕ → V × V) : ∀ (cs : List ℕ), cs.Nodup → ∀ M : RCell → V,
    ∃ M', run (Prog.forL (cs.map (fun c => (c, T c))) (fun ct _ => accP size (m : ℤ) f1 f2 ct) ()) M = (ok (), M') ∧
      ∀ e : RCell, M' e = if e.1 ∈ cs ∧ e.2.1 = m then M e + (if e.2.2 then (T e.1).2 * f2 else (T e.1).1 * f1) else M e
  | [], _, M => ⟨M, rfl, fun e => by simp⟩
  | c :: cs, hnd, M => by
    have hc : c ∉ cs := (List.nodup_cons.mp hnd).1
    have e1 : run (accP size (m : ℤ) f1 f2 (c, T c)) M = (ok (), Function.update (Function.update M (c, m, false) (M (c, m, false) + (T c).1 * f1))
        (c, m, true) (M (c, m, true) + (T c).2 * f2)) := by
      unfold accP
      have hcell : ∀ im, tmpCell size c (m : ℤ) im = ok (c, m, im) := by
        intro im
        unfold tmpCell; rw [if_pos (by omega)]; rfl
      rw [run_lift (hcell false), run_rd, run_wr, run_lift (hcell true), run_rd, run_wr0]
      rw [Function.update_of_ne (by simp)]
    obtain ⟨M', e2, h2⟩ := run_acc hm f1 f2 T cs (List.nodup_cons.mp hnd).2 (Function.update (Function.update M (c, m, false)
        (M (c, m, false) + (T c).1 * f1)) (c, m, true) (M (c, m, true) + (T c).2 * f2))
    refine ⟨M', ?_, ?_⟩
    · show run (Prog.bind _ _) M = _
      rw [run_bind_ok e1, e2]
    · rintro ⟨c', m', im⟩
      rw [h2]
      dsimp only
      by_cases hcc : c' = c
      · subst hcc
        rw [if_neg (by tauto)]
        by_cases hmm : m' = m
        · subst hmm
          cases im
          · rw [Function.update_of_ne (by simp), Function.update_self]; simp
          · rw [Function.update_self]; simp
        · rw [Function.update_of_ne (by simp [hmm]), Function.update_of_ne (by simp [hmm])]
          simp [hmm]
      · rw [Function.update_of_ne (by simp [hcc]), Function.update_of_ne (by simp [hcc])]
        simp [hcc]

variable {r : Inputs V} {cs : List ℕ} {A : ℕ → ℕ → V × V} {X : ℕ → V × V} {D : ℕ → ℕ → V}

theorem run_inner (h : InBounds r cs A X D) {lo mm : ℕ} (h1 : 1 ≤ mm) (hmm : mm ≤ r.l) : ∀ (n : ℕ), lo + n ≤ r.l + 1 → ∀ M : RCell → V,
    ∃ M', run (Prog.forN n (innerP r (cs.map (fun c => (c, cmul (A c mm) (X mm)))) mm (decide (mm % 2 = 1)) (lo : ℤ))
        (decide (((mm : ℤ) + lo) % 2 = 1))) M = (ok (decide (((mm : ℤ) + lo + n) % 2 = 1)), M') ∧
      ∀ e : RCell, M' e = if e.1 ∈ cs ∧ lo ≤ e.2.1 ∧ e.2.1 < lo + n then M e + incr A X D r.l e.1 e.2.1 e.2.2 mm else M e := by
  intro n
  induction n with
  | zero =>
    intro _ M
    refine ⟨M, ?_, fun e => by rw [if_neg (by omega)]⟩
    simp only [Prog.forN, run, Nat.cast_zero, add_zero]
  | succ n ih =>
    intro hn M
    obtain ⟨M1, e1, h1'⟩ := ih (by omega) M
    have hs := h.hsize
    obtain ⟨M2, e2, h2⟩ := run_acc (size := r.size) (m := lo + n) (by omega)
      (sgn (decide (((mm : ℤ) + lo + n) % 2 = 1)) (D (r.l - mm) (r.l - (lo + n))) + sgn (decide (mm % 2 = 1)) (D (r.l - mm) (r.l + (lo + n))))
      (sgn (decide (((mm : ℤ) + lo + n) % 2 = 1)) (D (r.l - mm) (r.l - (lo + n))) - sgn (decide (mm % 2 = 1)) (D (r.l - mm) (r.l + (lo + n))))
      (fun c => cmul (A c mm) (X mm)) cs h.nodup M1
    refine ⟨M2, ?_, ?_⟩
    · show run (Prog.bind _ _) M = _
      rw [run_bind_ok e1]
      unfold innerP
      have q1 : r.d ((r.l : ℤ) - mm) ((r.l : ℤ) - ((lo : ℤ) + n)) = ok (D (r.l - mm) (r.l - (lo + n))) := by
        rw [← h.hd _ _ (by omega) (by omega)]; congr 1 <;> omega
      have q2 : r.d ((r.l : ℤ) - mm) ((r.l : ℤ) + ((lo : ℤ) + n)) = ok (D (r.l - mm) (r.l + (lo + n))) := by
        rw [← h.hd _ _ (by omega) (by omega)]; congr 1 <;> omega
      rw [run_lift q1, run_lift q2]
      dsimp only
      rw [Nat.cast_add] at e2
      rw [run_bind_ok' e2, Risbo.not_odd]
      simp only [run]
      congr 3
    · intro e
      rw [h2, h1' e]
      have hodd : decide (((mm : ℤ) + lo + n) % 2 = 1) = decide ((mm + (lo + n)) % 2 = 1) := by congr 1; apply propext; omega
      by_cases hc : e.1 ∈ cs
      · by_cases hm : e.2.1 = lo + n
        · rw [if_pos ⟨hc, hm⟩, if_neg (by omega), if_pos (show e.1 ∈ cs ∧ lo ≤ e.2.1 ∧ e.2.1 < lo + (n + 1) from ⟨hc, by omega, by omega⟩)]
          unfold incr
          rw [hm, hodd]
        · rw [if_neg (by tauto)]
          by_cases hr : lo ≤ e.2.1 ∧ e.2.1 < lo + n
          · rw [if_pos ⟨hc, hr⟩, if_pos ⟨hc, by omega, by omega⟩]
          · rw [if_neg (by tauto), if_neg (by omega)]
      · rw [if_neg (by tauto), if_neg (by tauto), if_neg (by tauto)]

theorem total_succ (l c m : ℕ) (im : Bool) (x : V) (n : ℕ) :
    total A X D l c m im x (n + 1) = total A X D l c m im x n + incr A X D l c m im (n + 1) := by
  unfold total
  rw [List.range'_concat, List.foldl_append, show 1 + 1 * n = n + 1 by omega]; rfl

theorem run_outer (h : InBounds r cs A X D) {lo hi : ℕ} (hlh : lo ≤ hi) (hhi : hi ≤ r.l + 1) : ∀ (n : ℕ), n ≤ r.l → ∀ M : RCell → V,
    ∃ M', run (Prog.forN n (outerP r cs (lo : ℤ) (hi : ℤ)) true) M = (ok (decide ((n + 1) % 2 = 1)), M') ∧
      ∀ e : RCell, M' e = if e.1 ∈ cs ∧ lo ≤ e.2.1 ∧ e.2.1 < hi then total A X D r.l e.1 e.2.1 e.2.2 (M e) n else M e := by
  intro n
  induction n with
  | zero =>
    intro _ M
    refine ⟨M, rfl, fun e => ?_⟩
    split <;> rfl
  | succ n ih =>
    intro hn M
    obtain ⟨M1, e1, h1⟩ := ih (by omega) M
    obtain ⟨M2, e2, h2⟩ := run_inner h (lo := lo) (mm := n + 1) (by omega) hn (hi - lo) (by omega) M1
    refine ⟨M2, ?_, fun e => ?_⟩
    · show run (Prog.bind _ _) M = _
      rw [run_bind_ok e1]
      unfold outerP
      have hf := factors_ok (r := r) (A := A) (X := X) (mm := n + 1) (by have := h.hx (n + 1) (by omega) hn; exact_mod_cast this)
        (cs := cs) (fun c hc => by have := h.ha c hc (n + 1) (by omega) hn; exact_mod_cast this)
      rw [run_lift hf]
      rw [show ((hi : ℤ) - lo).toNat = hi - lo by omega, show (((n : ℤ) + 1) + lo) = (((n + 1 : ℕ) : ℤ) + lo) by push_cast; rfl]
      rw [run_bind_ok' e2]
      simp only [run]
      congr 2
      rw [Bool.eq_iff_iff]
      simp only [Bool.not_eq_true', decide_eq_false_iff_not, decide_eq_true_eq]
      omega
    · rw [h2, h1, show lo + (hi - lo) = hi by omega]
      by_cases hc : e.1 ∈ cs ∧ lo ≤ e.2.1 ∧ e.2.1 < hi
      · rw [if_pos hc, if_pos hc, if_pos hc, total_succ]
      · rw [if_neg hc, if_neg hc, if_neg hc]

theorem run_thread (h : InBounds r cs A X D) {n t : ℕ} (ht : t < n) (M : RCell → V) :
    ∃ M', run (threadP r cs n t) M = (ok (), M') ∧
      ∀ e : RCell, (e.1 ∈ cs ∧ e ∈ part r.l n t → M' e = total A X D r.l e.1 e.2.1 e.2.2 (M e) r.l) ∧ (¬ (e.1 ∈ cs ∧ e ∈ part r.l n t) → M' e = M e) := by
  obtain ⟨L, H, hs⟩ := shares r.l n
  obtain ⟨a1, a2, a3, a4⟩ := hs t ht
  obtain ⟨M', e1, h1⟩ := run_outer h (lo := (L t).toNat) (hi := (H t).toNat) (by omega) (by omega) r.l le_rfl M
  refine ⟨M', ?_, fun e => ?_⟩
  · unfold threadP
    rw [run_lift a1]
    rw [Int.toNat_of_nonneg a2, Int.toNat_of_nonneg (by omega)] at e1
    dsimp only
    rw [run_bind_ok' e1]
    rfl
  · have key : (e.1 ∈ cs ∧ (L t).toNat ≤ e.2.1 ∧ e.2.1 < (H t).toNat) ↔ (e.1 ∈ cs ∧ e ∈ part r.l n t) := by
      constructor
      · rintro ⟨hc, h2, h3⟩
        exact ⟨hc, L t, H t, a1, by omega, by omega⟩
      · rintro ⟨hc, lo, hi, e', h2, h3⟩
        rw [a1] at e'
        injection e' with e'
        have q1 : L t = lo := congrArg Prod.fst e'
        have q2 : H t = hi := congrArg Prod.snd e'
        exact ⟨hc, by omega, by omega⟩
    rw [h1]
    constructor
    · intro hp; rw [if_pos (key.mpr hp)]
    · intro hp; rw [if_neg (fun h' => hp (key.mp h'))]

theorem run_threads (h : InBounds r cs A X D) {n : ℕ} : ∀ (ts : List ℕ), ts.Nodup → (∀ t ∈ ts, t < n) → ∀ M : RCell → V,
    ∃ M', run (Prog.forL ts (fun t _ => threadP r cs n t) ()) M = (ok (), M') ∧
      ∀ e : RCell, ((e.1 ∈ cs ∧ ∃ t ∈ ts, e ∈ part r.l n t) → M' e = total A X D r.l e.1 e.2.1 e.2.2 (M e) r.l) ∧
        (¬ (e.1 ∈ cs ∧ ∃ t ∈ ts, e ∈ part r.l n t) → M' e = M e)
  | [], _, _, M => ⟨M, rfl, fun e => ⟨by simp, fun _ => rfl⟩⟩
  | t :: ts, hnd, hlt, M => by
    obtain ⟨hnt, hnd'⟩ := List.nodup_cons.mp hnd
    obtain ⟨M1, e1, h1⟩ := run_thread h (hlt t List.mem_cons_self) M
    obtain ⟨M2, e2, h2⟩ := run_threads h ts hnd' (fun u hu => hlt u (List.mem_cons_of_mem _ hu)) M1
    refine ⟨M2, ?_, fun e => ?_⟩
    · show run (Prog.bind _ _) M = _
      rw [run_bind_ok e1, e2]
    · by_cases hin : e.1 ∈ cs ∧ e ∈ part r.l n t
      · have hout : ¬ (e.1 ∈ cs ∧ ∃ u ∈ ts, e ∈ part r.l n u) := by
          rintro ⟨-, u, hu, hp⟩
          exact part_disj (hlt t List.mem_cons_self) (hlt u (List.mem_cons_of_mem _ hu)) (by rintro rfl; exact hnt hu) hin.2 hp
        refine ⟨fun _ => by rw [(h2 e).2 hout, (h1 e).1 hin], fun hn => absurd ⟨hin.1, t, List.mem_cons_self, hin.2⟩ hn⟩
      · constructor
        · rintro ⟨hc, u, hu, hp⟩
          rcases List.mem_cons.mp hu with rfl | hu
          · exact absurd ⟨hc, hp⟩ hin
          · rw [(h2 e).1 ⟨hc, u, hu, hp⟩, (h1 e).2 hin]
        · intro hn
          rw [(h2 e).2 (fun ⟨hc, u, hu, hp⟩ => hn ⟨hc, u, List.mem_cons_of_mem _ hu, hp⟩), (h1 e).2 hin]

/-! ## The team -/

/-- No thread-specific shared data. -/
def noX : ℕ → Set RCell := fun _ => ∅

theorem rot_separate (h : InBounds r cs A X D) (n : ℕ) : Par.Separate noX (fun _ : Unit => True) (rotLoop r cs n) := by
  have hm : ∀ {t}, t ∈ (rotLoop r cs n).iters → t < n := fun ht => List.mem_range.mp ht
  refine ⟨part r.l n, ∅, fun t M => (run (threadP r cs n t) M).2, Par.LoopOK.of (s0 := ()) trivial (u := 1) rfl List.nodup_range
    (fun _ _ => trivial) (fun _ s _ _ => ⟨s, trivial, rfl⟩) (fun _ t _ _ => (thread_stays r cs n t).mono (fun _ h => Or.inl h))
    (fun i hi j hj hij e he => part_disj (hm hi) (hm hj) hij he) (fun _ _ _ _ _ h => h) (fun _ _ _ _ h => h)
    (fun _ _ _ _ h => absurd h (by simp [noX])) (fun _ _ h _ => h) (fun _ t ht s M _ => ?_)⟩
  obtain ⟨M', e, -⟩ := run_thread h (hm ht) M
  exact ⟨(), trivial, by show (run (threadP r cs n t) M).1 = _; rw [e], fun _ _ => rfl⟩

theorem team_dealt (n : ℕ) : Par.Dealt (teamOf n) (List.range n) := by
  unfold Par.Dealt teamOf
  have : (List.ofFn (fun t : Fin n => [t.1])).flatten = List.range n := by
    rw [show (List.ofFn (fun t : Fin n => [t.1])) = (List.range n).map (fun t => [t]) from by
      apply List.ext_getElem <;> simp]
    rw [← List.flatMap_def]
    simp
  rw [this]

/-- Every end of the region, whatever the interleaving. -/
theorem rot_ends (h : InBounds r cs A X D) {n : ℕ} (hn : 0 < n) {M M' : RCell → V} {s s' : Fin n → Unit}
    (he : Par.Ends [(rotLoop r cs n).phase (teamOf n)] M s M' s') (e : RCell) :
    (e.1 ∈ cs ∧ e.2.1 ≤ r.l → M' e = total A X D r.l e.1 e.2.1 e.2.2 (M e) r.l) ∧ (¬ (e.1 ∈ cs ∧ e.2.1 ≤ r.l) → M' e = M e) := by
  have hall : ∀ lp ∈ [rotLoop r cs n], Par.Separate noX (fun _ : Unit => True) lp := by
    intro lp hl
    rw [List.mem_singleton.mp hl]
    exact rot_separate h n
  have hd : Par.Deals [rotLoop r cs n] [teamOf n] := .cons (team_dealt n) .nil
  obtain ⟨s1, M1, e1, h1⟩ := Par.team_eq_seq 1 hd hall (fun _ => trivial) he (s0 := ()) trivial (m0 := M) (fun _ _ => rfl)
  obtain ⟨M2, e2, h2⟩ := run_threads h (n := n) (List.range n) List.nodup_range (fun t ht => List.mem_range.mp ht) M
  have e3 : run (Par.seqAll 1 [rotLoop r cs n] ()) M = (ok (), M2) := by
    unfold Par.seqAll
    rw [run_bind_ok (p := ((rotLoop r cs n).pre 1 ()).bind (Prog.forL (rotLoop r cs n).iters ((rotLoop r cs n).body 1))) (m' := M2) (a := ()) e2]
    rfl
  have e4 := e1.symm.trans e3
  injection e4 with _ e4
  subst e4
  have key : (e.1 ∈ cs ∧ ∃ t ∈ List.range n, e ∈ part r.l n t) ↔ (e.1 ∈ cs ∧ e.2.1 ≤ r.l) := by
    constructor
    · rintro ⟨hc, t, ht, lo, hi, e', h2, h3⟩
      obtain ⟨L, H, hs⟩ := shares r.l n
      obtain ⟨a1, a2, a3, a4⟩ := hs t (List.mem_range.mp ht)
      rw [a1] at e'
      injection e' with e'
      have q2 : H t = hi := congrArg Prod.snd e'
      exact ⟨hc, by omega⟩
    · rintro ⟨hc, hl⟩
      obtain ⟨t, ht, hp⟩ := part_cover (l := r.l) hn hl e.1 e.2.2
      exact ⟨hc, t, List.mem_range.mpr ht, hp⟩
  rw [h1 _ (fun _ h => h)]
  exact ⟨fun hp => (h2 e).1 (key.mpr hp), fun hp => (h2 e).2 (fun h' => hp (key.mp h'))⟩

end

end Verif.RotPar
