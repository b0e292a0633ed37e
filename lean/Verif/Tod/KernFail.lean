import Verif.Tod.Witness
import Verif.Tod.Nan

/-!
# Failure of the kernel inside a job

All ranks of a job that would otherwise return reach the computation of their rings (`Env.kern`, the part of `conviqt_hemiscm` between
the assignment of latitudes and the exchange of the cube, src/conviqt_math.cpp:670-793).  Here: what becomes of the job when that computation
throws or is undefined on some ranks.
-/

namespace Verif.Tod
open Verif Res Spmd

variable {F : Type} [Arith F]

/-- The ways local code can fail. -/
inductive Fail where
  | throw (m : String)
  | ub (w : String)

/-- A failure as an outcome of local code. -/
def Fail.res {β : Type} : Fail → Res β
  | .throw m => Res.throw m
  | .ub w => Res.ub w

/-- All ranks run together in `P`, in any context, until every rank `r` with `B r = some b` has failed with `b`. -/
def ExecFail {α β : Type} (n : Nat) (P : Nat → Prog α β) (B : Nat → Option Fail) : Prop :=
  ∀ (γ : Type) (f : Nat → β → Prog α γ), ∃ Q, Steps n (fun r => P r >>= f r) Q ∧ ∀ r < n, ∀ b, B r = some b → Q r = .done b.res

theorem ExecFail.left {α β γ : Type} {n : Nat} {P : Nat → Prog α β} {B : Nat → Option Fail} {Q : Nat → β → Prog α γ} (h : ExecFail n P B) :
    ExecFail n (fun r => P r >>= Q r) B := by
  intro δ f
  have : (fun r => (P r >>= Q r) >>= f r) = (fun r => P r >>= fun b => Q r b >>= f r) := by
    funext r; exact Prog.bind_assoc _ _ _
  rw [this]
  exact h δ (fun r b => Q r b >>= f r)

theorem ExecFail.right {α β γ : Type} {n : Nat} {P : Nat → Prog α β} {v : Nat → β} {B : Nat → Option Fail} {Q : Nat → β → Prog α γ}
    (h1 : Exec n P v) (h2 : ExecFail n (fun r => Q r (v r)) B) : ExecFail n (fun r => P r >>= Q r) B := by
  intro δ f
  obtain ⟨S, hS, hS'⟩ := h2 δ f
  exact ⟨S, (h1.steps Q f).trans hS, hS'⟩

theorem ExecFail.local {α β : Type} {n : Nat} {P : Nat → Res β} {B : Nat → Option Fail} (h : ∀ r < n, ∀ b, B r = some b → P r = b.res) :
    ExecFail n (fun r => (Prog.lift (P r) : Prog α β)) B := by
  intro γ f
  refine ⟨_, .refl (fun r hr => rfl), fun r hr b hb => ?_⟩
  simp only
  rw [h r hr b hb]
  cases b <;> rfl

theorem ExecFail.congr {α β : Type} {n : Nat} {P Q : Nat → Prog α β} {B : Nat → Option Fail} (hP : ∀ r < n, P r = Q r)
    (h : ExecFail n P B) : ExecFail n Q B := by
  intro γ f
  obtain ⟨S, hS, hS'⟩ := h γ f
  exact ⟨S, hS.congr_left (fun r hr => by rw [hP r hr]), hS'⟩

theorem Prog.bind_pure' {α β : Type} (p : Prog α β) : (p >>= fun b => Pure.pure b) = p := by
  induction p with
  | done r => cases r <;> rfl
  | call c k ih => simp only [Prog.call_bind]; congr 1; funext a; exact ih a

theorem ExecFail.steps {α β : Type} {n : Nat} {P : Nat → Prog α β} {B : Nat → Option Fail} (h : ExecFail n P B) :
    ∃ Q, Steps n P Q ∧ ∀ r < n, ∀ b, B r = some b → Q r = .done b.res := by
  obtain ⟨Q, hQ, hQ'⟩ := h β (fun _ b => Pure.pure b)
  have e : (fun r => P r >>= fun b => Pure.pure b) = P := by funext r; exact Prog.bind_pure' _
  rw [e] at hQ
  exact ⟨Q, hQ, hQ'⟩

/-- The rings of the ranks: `latTables` gives rank `r` the list `M r`; every needed ring is in one of the lists. -/
theorem latTables_exec {nan : Res Int} (hnan : ∃ v, nan = ok v) {cores : Nat} (hc : 1 ≤ cores) (c : Cfg) (off1 n1 off2 n2 : Nat → Nat)
    (hw1 : ∀ r < cores, off1 r + n1 r ≤ c.ntheta) (hw2 : ∀ r < cores, off2 r + n2 r ≤ c.ntheta) :
    ∃ (N1 N2 : List (List Bool)) (M : Nat → List Nat) (owner : List Int),
      Exec cores (fun r => latTables (F := F) nan c cores r (off1 r) (n1 r) (off2 r) (n2 r)) (fun r => (N1, N2, M r, owner)) ∧
      (∀ r, ∀ i ∈ M r, i < c.ntheta) ∧
      ∀ i, (∃ r < cores, (off1 r ≤ i ∧ i < off1 r + n1 r) ∨ (off2 r ≤ i ∧ i < off2 r + n2 r)) → ∃ r < cores, i ∈ M r := by
  set N1 := (List.range cores).map (fun r => needRow c.ntheta (off1 r) (n1 r)) with hN1
  set N2 := (List.range cores).map (fun r => needRow c.ntheta (off2 r) (n2 r)) with hN2
  set need := List.zipWith (· || ·) (orCols N1 c.ntheta) (orCols N2 c.ntheta) with hneed
  have hneedlen : need.length = c.ntheta := by simp [hneed, orCols]
  have hA : ∀ me, ∃ t, assign nan cores me need = ok t ∧ t.owner.length = need.length ∧
      (∀ i (h : i < t.owner.length), (need[i]? = some true → 0 ≤ t.owner[i] ∧ t.owner[i] < cores) ∧
        (need[i]? = some false → t.owner[i] = -1)) ∧
      t.mine = (List.range need.length).filter (fun i => t.owner.getD i (-1) == (me : Int)) :=
    fun me => assign_spec hnan (by omega) me need
  choose T hT1 hT2 hT3 hT4 using hA
  set owner := (T 0).owner with howner
  have hown : ∀ me, (T me).owner = owner := fun me => assign_owner (hT1 me) (hT1 0)
  have hol : owner.length = c.ntheta := by rw [howner, hT2, hneedlen]
  have hmine : ∀ r, (T r).mine = (List.range c.ntheta).filter (fun i => owner.getD i (-1) == (r : Int)) := by
    intro r
    rw [hT4 r, hown r, hneedlen]
  have hrow : ∀ (off n i : Nat), i < c.ntheta → off ≤ i → i < off + n → (needRow c.ntheta off n).getD i false = true := by
    intro off n i h1 h2 h3
    simp [needRow, List.getD_eq_getElem?_getD, h1, h2, h3]
  have hin : ∀ i, need[i]? = some true → i < c.ntheta → ∃ r < cores, i ∈ (T r).mine := by
    intro i hi hlt
    have := (hT3 0 i (by rw [hT2, hneedlen]; exact hlt)).1 hi
    have hg : owner.getD i (-1) = (T 0).owner[i]'(by rw [hT2, hneedlen]; exact hlt) := by
      rw [List.getD_eq_getElem?_getD, List.getElem?_eq_getElem (by rw [hol]; exact hlt)]; rfl
    refine ⟨(owner.getD i (-1)).toNat, by rw [hg]; omega, ?_⟩
    rw [hmine, List.mem_filter, List.mem_range]
    refine ⟨hlt, ?_⟩
    rw [beq_iff_eq, Int.toNat_of_nonneg (by rw [hg]; omega)]
  refine ⟨N1, N2, fun r => (T r).mine, owner, ?_, ?_, ?_⟩
  · unfold latTables
    refine Exec.seq (Exec.local hc (v := fun r => needRow c.ntheta (off1 r) (n1 r)) (fun r hr => markNeed_eq (hw1 r hr))) ?_
    refine Exec.seq (Exec.local hc (v := fun r => needRow c.ntheta (off2 r) (n2 r)) (fun r hr => markNeed_eq (hw2 r hr))) ?_
    refine Exec.seq (allBor_exec hc (fun r => needRow c.ntheta (off1 r) (n1 r)) c.ntheta (fun r _ => by simp [needRow])) ?_
    refine Exec.seq (allBor_exec hc (fun r => needRow c.ntheta (off2 r) (n2 r)) c.ntheta (fun r _ => by simp [needRow])) ?_
    refine Exec.seq (allGather_exec hc (fun r => needRow c.ntheta (off1 r) (n1 r)) c.ntheta (fun r _ => by simp [needRow])) ?_
    refine Exec.seq (allGather_exec hc (fun r => needRow c.ntheta (off2 r) (n2 r)) c.ntheta (fun r _ => by simp [needRow])) ?_
    refine Exec.seq (Exec.local hc (v := T) (fun r _ => hT1 r)) ?_
    exact Exec.local hc (fun r _ => by rw [hown r])
  · intro r i hi
    simp only [hmine, List.mem_filter, List.mem_range] at hi
    exact hi.1
  · rintro i ⟨r, hr, ⟨l1, l2⟩ | ⟨l1, l2⟩⟩
    · have hlt : i < c.ntheta := by have := hw1 r hr; omega
      apply hin i _ hlt
      have := orCols_get N1 c.ntheta i hlt _ (List.mem_map.mpr ⟨r, List.mem_range.mpr hr, rfl⟩) (hrow _ _ i hlt l1 l2)
      rw [hneed, List.getElem?_zipWith, this]
      have h' : (orCols N2 c.ntheta)[i]? = some ((orCols N2 c.ntheta)[i]'(by simp [orCols, hlt])) :=
        List.getElem?_eq_getElem _
      rw [h']; simp
    · have hlt : i < c.ntheta := by have := hw2 r hr; omega
      apply hin i _ hlt
      have := orCols_get N2 c.ntheta i hlt _ (List.mem_map.mpr ⟨r, List.mem_range.mpr hr, rfl⟩) (hrow _ _ i hlt l1 l2)
      rw [hneed, List.getElem?_zipWith, this]
      have h' : (orCols N1 c.ntheta)[i]? = some ((orCols N1 c.ntheta)[i]'(by simp [orCols, hlt])) :=
        List.getElem?_eq_getElem _
      rw [h']; simp

/-- The two halves of one rank in `todgen` on sorted rows, up to the windows of rings they need. -/
theorem todgen_pre {e : Env F} {Ang : F → Prop} (hL : Laws e Ang) (Y : List (Row F)) (hA : ∀ y ∈ Y, Ang y.theta)
    (k : Nat) (hkl : k ≤ Y.length) :
    ∃ (No So : List (Row F)) (su1 su2 : SetUp),
      (if k ≠ 0 then arrFilling e.srt k (tagSig Y) 0 else ok []) = ok No ∧
      (if Y.length - k ≠ 0 then arrFilling e.srt (Y.length - k) (tagSig Y) k else ok []) = ok So ∧
      (if No.length ≠ 0 then setUp e.cfg No else ok ⟨[], 0, 0⟩) = ok su1 ∧
      (if So.length ≠ 0 then setUp e.cfg So else ok ⟨[], 0, 0⟩) = ok su2 ∧
      (0 ≤ su1.off ∧ 0 ≤ su1.n ∧ su1.off + su1.n ≤ e.cfg.ntheta) ∧ (0 ≤ su2.off ∧ 0 ≤ su2.n ∧ su2.off + su2.n ≤ e.cfg.ntheta) ∧
      ∀ y ∈ Y, ∀ i0, betaToItheta e.cfg (foldGt y.theta) = ok i0 →
        (su1.off ≤ i0 ∧ i0 + e.cfg.npoints ≤ su1.off + su1.n) ∨ (su2.off ≤ i0 ∧ i0 + e.cfg.npoints ≤ su2.off + su2.n) := by
  set X := tagSig Y with hX
  have hXl : X.length = Y.length := by simp [hX]
  have hXth : ∀ i (h : i < X.length), X[i].theta = (Y[i]'(by omega)).theta := by
    intro i h; simp [hX, tagSig]
  have hXA : ∀ x ∈ X, Ang x.theta := by
    intro x hx
    obtain ⟨i, hi, rfl⟩ := List.getElem_of_mem hx
    rw [hXth i hi]
    exact hA _ (List.getElem_mem _)
  have hpart : ∀ (off cnt : Nat), off + cnt ≤ X.length →
      ∃ P su, (if cnt ≠ 0 then arrFilling e.srt cnt X off else ok []) = ok P ∧
        (if P.length ≠ 0 then setUp e.cfg P else ok ⟨[], 0, 0⟩) = ok su ∧
        (0 ≤ su.off ∧ 0 ≤ su.n ∧ su.off + su.n ≤ e.cfg.ntheta) ∧
        ∀ x ∈ (X.drop off).take cnt, ∀ i0, betaToItheta e.cfg (foldGt x.theta) = ok i0 →
          su.off ≤ i0 ∧ i0 + e.cfg.npoints ≤ su.off + su.n := by
    intro off cnt hoc
    by_cases h0 : cnt = 0
    · subst h0
      exact ⟨[], ⟨[], 0, 0⟩, by simp, by simp, by simp, by simp⟩
    · rw [if_pos h0]
      unfold arrFilling sliceChk
      rw [if_pos hoc, ok_bind]
      obtain ⟨P, p1, p2, p3⟩ := sort_rows hL (((X.drop off).take cnt).map foldRow) (by
        intro q hq
        obtain ⟨x, hx, rfl⟩ := List.mem_map.mp hq
        exact hL.fold _ (hXA x (List.mem_of_mem_drop (List.mem_of_mem_take hx))))
      have hPl : P.length = cnt := by
        rw [p2.length_eq]; simp; omega
      have hPne : P ≠ [] := by intro h; rw [h] at hPl; simp at hPl; omega
      have hPA : ∀ r ∈ P, Ang r.theta ∧ Arith.lt Arith.halfpi r.theta = false := by
        intro r hr
        obtain ⟨x, hx, rfl⟩ := List.mem_map.mp (p2.mem_iff.mp hr)
        have := hXA x (List.mem_of_mem_drop (List.mem_of_mem_take hx))
        exact ⟨hL.fold _ this, hL.fold_le _ this⟩
      obtain ⟨su, h1, h2, h3, h4, h5, h6, h7⟩ := setUp_ok hL P hPne hPA p3
      refine ⟨P, su, p1, by rw [if_pos (by omega)]; exact h1, ⟨h5, h6, h7⟩, fun x hx i0 hi0 => ?_⟩
      have hm : foldRow x ∈ P := p2.mem_iff.mpr (List.mem_map.mpr ⟨x, hx, rfl⟩)
      obtain ⟨j, hj, hje⟩ := List.getElem_of_mem hm
      have := h4 j hj
      rw [hje, show (foldRow x).theta = foldGt x.theta from rfl, hi0] at this
      injection this with this
      rw [this]
      exact ⟨h2.ge (by omega), h2.le (by omega)⟩
  obtain ⟨No, su1, n1, n2, n3, n4⟩ := hpart 0 k (by omega)
  obtain ⟨So, su2, s1, s2, s3, s4⟩ := hpart k (Y.length - k) (by omega)
  refine ⟨No, So, su1, su2, n1, s1, n2, s2, n3, s3, fun y hy i0 hi0 => ?_⟩
  obtain ⟨j, hj, rfl⟩ := List.getElem_of_mem hy
  have hjX : j < X.length := by omega
  rw [← hXth j hjX] at hi0
  by_cases hjk : j < k
  · left
    refine n4 X[j] ?_ i0 hi0
    rw [List.drop_zero, List.mem_iff_getElem]
    exact ⟨j, by rw [List.length_take]; omega, by rw [List.getElem_take]⟩
  · right
    refine s4 X[j] ?_ i0 hi0
    rw [List.take_of_length_le (by rw [List.length_drop]; omega), List.mem_iff_getElem]
    refine ⟨j - k, by rw [List.length_drop]; omega, ?_⟩
    rw [List.getElem_drop]
    congr 1; omega

/-- `todgen`: all ranks reach the kernel. -/
theorem todgen_fail {e : Env F} {Ang : F → Prop} {K : Nat → List Nat → Res (List (List F) × List (List F))}
    {G : Bool → Nat → List F} {sch : List Nat → List Nat}
    (hL : Laws { e with kern := K, ring := G, sched := sch } Ang) {n : Nat} (hn : 1 ≤ n)
    (Y : Nat → List (Row F)) (hA : ∀ r < n, ∀ y ∈ Y r, Ang y.theta) (k : Nat → Nat) (hk : ∀ r < n, k r ≤ (Y r).length) :
    ∃ M : Nat → List Nat, (∀ r, ∀ i ∈ M r, i < e.cfg.ntheta) ∧ (∀ i, Touched e.cfg n Y i → ∃ r < n, i ∈ M r) ∧
      ∀ B : Nat → Option Fail, (∀ r < n, ∀ b, B r = some b → e.kern r (M r) = b.res) →
        ExecFail n (fun r => todgen e n r (k r) ((Y r).length - k r) (Y r)) B := by
  have key : ∀ r, ∃ (No So : List (Row F)) (su1 su2 : SetUp), r < n →
      (if k r ≠ 0 then arrFilling e.srt (k r) (tagSig (Y r)) 0 else ok []) = ok No ∧
      (if (Y r).length - k r ≠ 0 then arrFilling e.srt ((Y r).length - k r) (tagSig (Y r)) (k r) else ok []) = ok So ∧
      (if No.length ≠ 0 then setUp e.cfg No else ok ⟨[], 0, 0⟩) = ok su1 ∧
      (if So.length ≠ 0 then setUp e.cfg So else ok ⟨[], 0, 0⟩) = ok su2 ∧
      (0 ≤ su1.off ∧ 0 ≤ su1.n ∧ su1.off + su1.n ≤ e.cfg.ntheta) ∧ (0 ≤ su2.off ∧ 0 ≤ su2.n ∧ su2.off + su2.n ≤ e.cfg.ntheta) ∧
      ∀ y ∈ Y r, ∀ i0, betaToItheta e.cfg (foldGt y.theta) = ok i0 →
        (su1.off ≤ i0 ∧ i0 + e.cfg.npoints ≤ su1.off + su1.n) ∨ (su2.off ≤ i0 ∧ i0 + e.cfg.npoints ≤ su2.off + su2.n) := by
    intro r
    by_cases hr : r < n
    · obtain ⟨No, So, su1, su2, h⟩ := todgen_pre hL (Y r) (hA r hr) (k r) (hk r hr)
      exact ⟨No, So, su1, su2, fun _ => h⟩
    · exact ⟨[], [], ⟨[], 0, 0⟩, ⟨[], 0, 0⟩, fun h => absurd h hr⟩
  choose No So su1 su2 hkey using key
  let off1 := fun r => (su1 r).off.toNat
  let n1 := fun r => (su1 r).n.toNat
  let off2 := fun r => (su2 r).off.toNat
  let n2 := fun r => (su2 r).n.toNat
  have hw1 : ∀ r < n, off1 r + n1 r ≤ e.cfg.ntheta := by
    intro r hr
    obtain ⟨-, -, -, -, ⟨a, b, c⟩, -, -⟩ := hkey r hr
    simp only [off1, n1]; omega
  have hw2 : ∀ r < n, off2 r + n2 r ≤ e.cfg.ntheta := by
    intro r hr
    obtain ⟨-, -, -, -, -, ⟨a, b, c⟩, -⟩ := hkey r hr
    simp only [off2, n2]; omega
  have hcov : ∀ i, Touched e.cfg n Y i → ∃ r < n, (off1 r ≤ i ∧ i < off1 r + n1 r) ∨ (off2 r ≤ i ∧ i < off2 r + n2 r) := by
    rintro i ⟨r, hr, y, hy, i0, h0, h1, h2⟩
    obtain ⟨-, -, -, -, ⟨a1, b1, -⟩, ⟨a2, b2, -⟩, hc⟩ := hkey r hr
    refine ⟨r, hr, ?_⟩
    simp only [off1, n1, off2, n2]
    rcases hc y hy i0 h0 with ⟨x1, x2⟩ | ⟨x1, x2⟩
    · left; constructor <;> omega
    · right; constructor <;> omega
  obtain ⟨N1, N2, M, owner, hE, hM, hMc⟩ := latTables_exec (F := F) hL.nan hn e.cfg off1 n1 off2 n2 hw1 hw2
  refine ⟨M, hM, fun i hi => hMc i (hcov i hi), fun B hB => ?_⟩
  unfold todgen
  refine ExecFail.right (Exec.local hn (v := No) (fun r hr => (hkey r hr).1)) ?_
  refine ExecFail.right (Exec.local hn (v := So) (fun r hr => (hkey r hr).2.1)) ?_
  refine ExecFail.right (barrier_exec hn) ?_
  refine ExecFail.left ?_
  unfold interpolTOD
  refine ExecFail.right (Exec.local hn (v := su1) (fun r hr => (hkey r hr).2.2.1)) ?_
  refine ExecFail.right (Exec.local hn (v := su2) (fun r hr => (hkey r hr).2.2.2.1)) ?_
  refine ExecFail.right (chatter_exec hn hL.verb) ?_
  refine ExecFail.left ?_
  unfold hemis
  refine ExecFail.right (v := fun r => (N1, N2, M r, owner)) (Exec.congr hn (fun r hr => ?_) (fun _ _ => rfl) hE) ?_
  · obtain ⟨-, -, -, -, ⟨a1, b1, -⟩, ⟨a2, b2, -⟩, -⟩ := hkey r hr
    simp only [off1, n1, off2, n2]
    rw [Int.toNat_of_nonneg a1, Int.toNat_of_nonneg b1, Int.toNat_of_nonneg a2, Int.toNat_of_nonneg b2]
  exact ExecFail.left (ExecFail.local hB)

/-- `middle`: all ranks reach the kernel. -/
theorem middle_fail {e : Env F} {Ang : F → Prop} {K : Nat → List Nat → Res (List (List F) × List (List F))}
    {G : Bool → Nat → List F} {sch : List Nat → List Nat}
    (hL : Laws { e with kern := K, ring := G, sched := sch } Ang) {n : Nat} (hn : 1 ≤ n) {N : Nat} (hT : TagLaw F N)
    (recv : Nat → List (Row F)) (hN : ∀ r < n, (recv r).length ≤ N) (hA : ∀ r < n, ∀ y ∈ recv r, Ang y.theta) :
    ∃ M : Nat → List Nat, (∀ r, ∀ i ∈ M r, i < e.cfg.ntheta) ∧ (∀ i, Touched e.cfg n recv i → ∃ r < n, i ∈ M r) ∧
      ∀ B : Nat → Option Fail, (∀ r < n, ∀ b, B r = some b → e.kern r (M r) = b.res) →
        ExecFail n (fun r => middle e n r (recv r)) B := by
  obtain ⟨tag, htag⟩ := tag_exists (F := F) hT
  have key := middle_parts hL recv hA
  choose Y hY using key
  have hpt : ∀ r < n, ∀ y ∈ Y r, ∃ i, ∃ (h : i < (recv r).length), y.theta = (recv r)[i].theta ∧
      tag y = i ∧ readTag y = ok (i : Int) := by
    intro r hr y hy
    have := (hY r hr).2.1.mem_iff.mp hy
    obtain ⟨i, hi, rfl⟩ := List.getElem_of_mem this
    have hi' : i < (recv r).length := by simpa using hi
    refine ⟨i, hi', by simp [tagSig], ?_⟩
    exact htag _ i (by have := hN r hr; omega) (tagSig_get _ i hi)
  have hlen : ∀ r < n, (Y r).length = (recv r).length := by
    intro r hr; rw [(hY r hr).2.1.length_eq]; simp
  have hth : ∀ r < n, ((Y r).map Row.theta).Perm ((recv r).map Row.theta) := by
    intro r hr
    have h1 := ((hY r hr).2.1.map Row.theta)
    rwa [tagSig_map Row.theta (fun _ _ => rfl)] at h1
  obtain ⟨M, hM1, hM2, hM3⟩ := todgen_fail hL hn Y
    (by intro r hr y hy; obtain ⟨i, hi, h1, _⟩ := hpt r hr y hy; rw [h1]; exact hA r hr _ (List.getElem_mem hi))
    (fun r => ((recv r).filter (fun y => Arith.lt y.theta Arith.halfpi)).length)
    (fun r hr => by rw [hlen r hr]; exact List.length_filter_le _ _)
  refine ⟨M, hM1, fun i hi => hM2 i ?_, fun B hB => ?_⟩
  · obtain ⟨r, hr, y, hy, i0, h⟩ := hi
    have := (hth r hr).mem_iff.mpr (List.mem_map.mpr ⟨y, hy, rfl⟩)
    obtain ⟨z, hz, hzt⟩ := List.mem_map.mp this
    exact ⟨r, hr, z, hz, i0, by rw [hzt]; exact h⟩
  unfold middle
  simp only
  refine ExecFail.right (Exec.local hn (v := Y) (fun r hr => (hY r hr).1)) ?_
  refine ExecFail.right (Exec.local hn (v := fun r => (Y r).map (fun y => (tag y : Int))) ?_) ?_
  · intro r hr
    apply mapM_ok
    intro y hy
    obtain ⟨i, _, _, h1, h2⟩ := hpt r hr y hy
    rw [h2, h1]
  exact ExecFail.left (ExecFail.congr (fun r hr => by rw [hlen r hr]) (hM3 B hB))

/-- A pointing that C59 says a job returns for, with at least one sample: legal colatitudes off the equator, latitude cuts that exist,
and no idle rank. -/
structure Reaches (nbin n : ℕ) (R : ℕ → List (Row ℝ)) : Prop where
  ranks : 1 ≤ n
  bins : 0 < nbin
  legal : LegalOff n R
  cuts : ∃ p, Cuts nbin n R p ∧ ∀ s < n, ¬ Idle nbin n R p s
  some : ∃ r < n, R r ≠ []

/-- For such a pointing the rings are distributed over the ranks
(rank `r` computes `M r`, rings of the grid), every ring some sample reads is computed by some rank, all ranks get as far as the
computation of their rings, and a rank whose computation fails ends with that failure. -/
theorem job_kernel_reached {e : Env ℝ} (hsort : ∀ l : List (ℝ × ℕ), (e.srt l).Perm l ∧ (e.srt l).Pairwise (fun p q => p.1 ≤ q.1))
    (hnan : ∃ v, e.nan = ok v) (hverb : SameVerb e.verb) {n : ℕ} {R : ℕ → List (Row ℝ)} (hR : Reaches e.nbin n R) :
    ∃ M : ℕ → List ℕ, (∀ r, ∀ i ∈ M r, i < e.cfg.ntheta) ∧ (∀ i, Touched e.cfg n R i → ∃ r < n, i ∈ M r) ∧
      ∀ B : ℕ → Option Fail, (∀ r < n, ∀ b, B r = some b → e.kern r (M r) = b.res) →
        ∃ Q, Steps n (job e n R) Q ∧ ∀ r < n, ∀ b, B r = some b → Q r = .done b.res := by
  have hn := hR.ranks
  have hT : TagLaw ℝ (total R n) := tagLaw_real _
  obtain ⟨p, hp, hid⟩ := hR.cuts
  have hD := (table_iff hR.bins hR.legal).1 p hp
  obtain ⟨H, hH, hB⟩ := hD.table
  rw [samples_length] at hB
  set bounds := cutTable e.nbin n p with hbd
  have hrange := hD.legal
  have hact : ∀ r < n, active n bounds R r := fun r hr => (active_iff_idle hn hp r).mpr (hid r hr)
  have hb : bounds.length = n := boundTable_length hn hB
  obtain ⟨tag, htag⟩ := tagOf_exists (F := ℝ) hT
  have hprep := prepare_exec e hn R htag hrange H bounds hH hB
  have hlaws : Laws (F := ℝ) { e with
      ring := (fun _ _ => List.replicate e.cfg.bufsize 0)
      kern := (fun _ mine => ok (mine.map (fun _ => List.replicate e.cfg.bufsize 0), mine.map (fun _ => List.replicate e.cfg.bufsize 0)))
      sched := id } (fun _ => True) :=
    laws_real ⟨hsort, fun l => List.Perm.refl l, hnan, hverb, fun _ _ => by simp, fun _ _ => rfl⟩
  obtain ⟨M, hM1, hM2, hM3⟩ := middle_fail hlaws hn hT (recvOf n bounds R) (recvOf_le hn hb R) (fun _ _ _ _ => trivial)
  refine ⟨M, hM1, fun i hi => hM2 i ?_, fun B hB => ExecFail.steps ?_⟩
  · obtain ⟨s, hs, y, hy, i0, h⟩ := hi
    obtain ⟨d, hd, z, hz, hzt⟩ := recvOf_cover hn hb R hs hy
    exact ⟨d, hd, z, hz, i0, by rw [hzt]; exact h⟩
  unfold job convolve
  refine ExecFail.right hprep ?_
  unfold exchange
  refine ExecFail.right (v := recvOf n bounds R) ?_ ?_
  · simp only [segSize_outSeg hn]
    refine Exec.congr hn (fun r hr => ?_) (fun r hr => ?_) (sendRecv_exec (F := ℝ) hn
      (fun s => (List.range n).map (toRank n bounds R s)) (inSegOf n bounds R) (outSegOf n bounds R)
      (fun r => (R r).length) (fun r => 5 * (recvOf n bounds R r).length)
      (fun r => 5 * (recvOf n bounds R r).length)
      (fun r hr => by have := active_iff.mp (hact r hr); omega)
      (fun s _ => by simp)
      (fun s _ => by simp [inSegOf, Function.comp_def])
      (fun r hr => by simp only [outSegOf, getD_map_range hr])
      (fun r hr => by simp only [recvOf, getD_map_range hr]))
    · rfl
    · simp only [recvOf, getD_map_range hr]
  exact ExecFail.left (hM3 B hB)

/-- The computation of rings throws on every rank: so does the job. -/
theorem job_kernel_throws {e : Env ℝ} (hsort : ∀ l : List (ℝ × ℕ), (e.srt l).Perm l ∧ (e.srt l).Pairwise (fun p q => p.1 ≤ q.1))
    (hnan : ∃ v, e.nan = ok v) (hverb : SameVerb e.verb) {n : ℕ} {R : ℕ → List (Row ℝ)} (hR : Reaches e.nbin n R) {m : String}
    (hk : ∀ r < n, ∀ mine, e.kern r mine = Res.throw m) :
    runAll n (job e n R) = .finished (List.replicate n (Res.throw m)) := by
  obtain ⟨M, -, -, h⟩ := job_kernel_reached hsort hnan hverb hR
  obtain ⟨Q, hQ, hQ'⟩ := h (fun _ => some (.throw m)) (fun r hr b hb => by cases hb; exact hk r hr _)
  rw [hQ.runAll_eq hR.ranks, runAll_congr hR.ranks (Q := fun _ => .done (Res.throw m)) (fun r hr => hQ' r hr _ rfl),
    runAll_done hR.ranks (fun _ => Res.throw m)]
  simp

/-- The computation of rings is undefined whenever it concerns ring `i`, which some sample reads: undefined behaviour on some rank. -/
theorem job_kernel_undefined {e : Env ℝ} (hsort : ∀ l : List (ℝ × ℕ), (e.srt l).Perm l ∧ (e.srt l).Pairwise (fun p q => p.1 ≤ q.1))
    (hnan : ∃ v, e.nan = ok v) (hverb : SameVerb e.verb) {n : ℕ} {R : ℕ → List (Row ℝ)} (hR : Reaches e.nbin n R) {i : ℕ} (hi : Touched e.cfg n R i)
    (hk : ∀ r < n, ∀ mine : List ℕ, i ∈ mine → (∀ j ∈ mine, j < e.cfg.ntheta) → ∃ w, e.kern r mine = Res.ub w) :
    ∃ r < n, HasUB n (job e n R) r := by
  obtain ⟨M, h1, h2, h⟩ := job_kernel_reached hsort hnan hverb hR
  obtain ⟨r, hr, hm⟩ := h2 i hi
  obtain ⟨w, hw⟩ := hk r hr _ hm (h1 r)
  obtain ⟨Q, hQ, hQ'⟩ := h (fun s => if s = r then some (.ub w) else none) (fun s hs b hb => by
    split at hb
    · rename_i hsr; subst hsr; cases hb; exact hw
    · cases hb)
  exact ⟨r, hr, Q, hQ, w, hQ' r hr (.ub w) (by simp)⟩

/-- Every sample reads some ring. -/
theorem touched_exists {c : Cfg} {n : ℕ} {R : ℕ → List (Row ℝ)} (h : ∃ r < n, R r ≠ []) : ∃ i, Touched c n R i := by
  obtain ⟨s, hs, hne⟩ := h
  obtain ⟨y, hy⟩ := List.exists_mem_of_ne_nil _ hne
  obtain ⟨i0, hi0⟩ := betaToItheta_real c (foldGt y.theta)
  have hr := betaToItheta_range hi0
  exact ⟨i0.toNat, s, hs, y, hy, i0, hi0, by omega, by unfold Cfg.npoints; push_cast; omega⟩

/-- A balanced job (C43) in which every rank has samples. -/
theorem reaches_of_balanced {nbin n : ℕ} {R : ℕ → List (Row ℝ)} (hn : 1 ≤ n) (hB : Balanced nbin n R) (hne : ∀ r < n, R r ≠ []) :
    Reaches nbin n R := by
  obtain ⟨b, hb⟩ := C43_distributed_partial (e := { demoEnv with nbin := nbin }) hB
  obtain ⟨p, hp⟩ := (table_iff (e := { demoEnv with nbin := nbin }) hB.nbin_pos hB.legal).2 ⟨b, hb⟩
  exact ⟨hn, hB.nbin_pos, hB.legal, ⟨p, hp, fun s hs hi => hne s hs hi.1⟩, hB.nonempty⟩

/-- One rank: any legal pointing. -/
theorem reaches_one {nbin : ℕ} {R : ℕ → List (Row ℝ)} (hb : 0 < nbin) (hL : LegalOff 1 R) (hne : R 0 ≠ []) : Reaches nbin 1 R :=
  ⟨le_refl 1, hb, hL, ⟨fun _ => 0, ⟨rfl, fun k hk => absurd hk (by omega), fun k hk => absurd hk (by omega),
    fun k hk => absurd hk (by omega), fun k hk => absurd hk (by omega)⟩, fun s hs hi => hne (by
      have : s = 0 := by omega
      subst this; exact hi.1)⟩, ⟨0, by omega, hne⟩⟩

end Verif.Tod
