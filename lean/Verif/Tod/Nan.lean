import Verif.Tod.Even
import Verif.Tod.Refuted
import Verif.Tod.Outcome

/-!
# C60: the conversion of NaN in the assignment of latitudes

`get_latitude_tables` evaluates `ceil(nleft / double(cores - core))` after the last rank has received its share
(src/conviqt_math.cpp:884-890): `0 / 0.` is NaN, and its conversion to `long` is undefined.  All other theorems about jobs take
the result of that conversion as some integer (`Env.nan = ok v`: the result is never used afterwards).  Here the conversion is undefined
behaviour (`Env.nan = ub w`).
-/

namespace Verif.Tod
open Verif Res Spmd

variable {F : Type} [Arith F]

/-- **C60** Without NaN conversion nothing else changes: if there are fewer needed latitudes than ranks the assignment does not perform
the conversion; the result is that of any platform. -/
theorem C60_few_defined_partial {cores : Nat} (hc : 1 ≤ cores) (me : Nat) (need : List Bool) (w : String) (v : Int)
    (hfew : trues need < cores) : assign (ub w) cores me need = assign (ok v) cores me need := by
  have hstep : ∀ (rest : List Bool) (k : Nat) (s : Assign), s.core + trues rest < cores →
      foldRes (assignStep (ub w) cores me) s (rest.zipIdx k) = foldRes (assignStep (ok v) cores me) s (rest.zipIdx k) := by
    intro rest
    induction rest with
    | nil => intro k s _; rfl
    | cons b rest ih =>
      intro k s h
      rw [List.zipIdx_cons, foldRes_cons, foldRes_cons]
      rw [trues_cons] at h
      cases b with
      | false =>
        have e1 : ∀ nan : Res Int, assignStep nan cores me s (false, k) = ok { s with owner := s.owner ++ [-1] } := fun _ => rfl
        rw [e1, e1]
        exact ih (k + 1) _ (by simpa using h)
      | true =>
        simp only [if_true] at h
        unfold assignStep
        simp only [if_true]
        by_cases hfull : s.nassigned + 1 = s.ncore
        · rw [if_pos hfull, if_pos hfull]
          have hne : (cores : Int) - (s.core + 1) ≠ 0 := by push_cast at h; omega
          unfold ceilQ
          rw [if_neg hne, if_neg hne]
          simp only [ok_bind, Res.bind]
          exact ih (k + 1) _ (by simp only; push_cast at h; omega)
        · rw [if_neg hfull, if_neg hfull]
          simp only [Res.bind]
          exact ih (k + 1) _ (by simp only; push_cast at h; omega)
  unfold assign
  have e : ∀ nan : Res Int, ceilQ nan ((need.filter id).length : Int) cores = ok (-(-((need.filter id).length : Int) / cores)) := by
    intro nan; unfold ceilQ; rw [if_neg (by omega)]
  simp only [e, ok_bind]
  exact hstep need 0 _ (by simp only; push_cast; omega)

/-- **C60** The assignment converts NaN exactly if there are at least as many needed latitudes as ranks. -/
theorem C60_conversion_iff {cores : Nat} (hc : 1 ≤ cores) (me : Nat) (need : List Bool) (w : String) :
    assign (ub w) cores me need = ub w ↔ cores ≤ trues need := by
  constructor
  · intro h
    by_contra hlt
    obtain ⟨t, ht, _⟩ := assign_spec (nan := ok 0) ⟨0, rfl⟩ (cores := cores) (by omega) me need
    rw [C60_few_defined_partial hc me need w 0 (by omega), ht] at h
    cases h
  · exact C60_nan_undefined hc me need

theorem card_le_trues : ∀ (need : List Bool) (S : List Nat), S.Nodup → (∀ i ∈ S, need[i]? = some true) → S.length ≤ trues need := by
  intro need S hnd hS
  have h1 : trues need = ((List.range need.length).filter (fun i => need.getD i false)).length := by
    clear hS
    induction need using List.reverseRecOn with
    | nil => rfl
    | append_singleton l b ih =>
      have e : trues (l ++ [b]) = trues l + if b then 1 else 0 := by
        unfold trues; rw [List.filter_append, List.length_append]; cases b <;> rfl
      rw [e, ih, List.length_append, List.length_singleton, List.range_succ, List.filter_append, List.length_append]
      congr 1
      · congr 1
        apply List.filter_congr
        intro i hi
        rw [List.mem_range] at hi
        rw [List.getD_eq_getElem?_getD, List.getD_eq_getElem?_getD, List.getElem?_append_left hi]
      · rw [List.filter_singleton]
        have e2 : (l ++ [b]).getD l.length false = b := by simp [List.getD_eq_getElem?_getD]
        rw [e2]; cases b <;> rfl
  rw [h1]
  apply List.Subperm.length_le
  apply List.subperm_of_subset hnd
  intro i hi
  have := hS i hi
  rw [List.mem_filter, List.mem_range]
  exact ⟨(List.getElem?_eq_some_iff.mp this).1, by rw [List.getD_eq_getElem?_getD, this]; rfl⟩

/-- The rings that the interpolation of some sample of the job reads. -/
def Touched (c : Cfg) (n : Nat) (R : Nat → List (Row F)) (i : Nat) : Prop :=
  ∃ r < n, ∃ y ∈ R r, ∃ i0 : Int, betaToItheta c (foldGt y.theta) = ok i0 ∧ i0 ≤ i ∧ (i : Int) < i0 + c.npoints

/-- Every row reaches some rank. -/
theorem recvOf_cover {n : Nat} (hn : 1 ≤ n) {bounds : List F} (hb : bounds.length = n) (R : Nat → List (Row F)) {s : Nat} (hs : s < n)
    {y : Row F} (hy : y ∈ R s) : ∃ d < n, ∃ z ∈ recvOf n bounds R d, z.theta = y.theta := by
  have h1 : y.theta ∈ (rows2 R s).map Row.theta := by rw [rows2_theta]; exact List.mem_map.mpr ⟨y, hy, rfl⟩
  obtain ⟨z, hz, hzt⟩ := List.mem_map.mp h1
  have h2 := (packedOf_perm hn hb R s).mem_iff.mpr hz
  rw [packedOf_eq] at h2
  obtain ⟨l, hl, hzl⟩ := List.mem_flatten.mp h2
  obtain ⟨d, hd, rfl⟩ := List.mem_map.mp hl
  refine ⟨d, List.mem_range.mp hd, z, ?_, hzt⟩
  unfold recvOf
  exact List.mem_flatten.mpr ⟨_, List.mem_map.mpr ⟨s, List.mem_range.mpr hs, rfl⟩, hzl⟩

theorem hemi_covers {e : Env F} {Ang : F → Prop} (hL : Laws e Ang) {south : Bool} {part : List (Row F)} {su : SetUp}
    (h : Hemi e south part su)
    (hA : ∀ r ∈ part, Ang r.theta ∧ Arith.lt Arith.halfpi r.theta = false)
    (hs : part.Pairwise (fun p q => Arith.lt q.theta p.theta = false)) {x : Row F} (hx : x ∈ part) {i0 : Int}
    (hi : betaToItheta e.cfg x.theta = ok i0) : su.off ≤ i0 ∧ i0 + e.cfg.npoints ≤ su.off + su.n := by
  have hne : part ≠ [] := List.ne_nil_of_mem hx
  obtain ⟨su', h1, h2, h3, h4, _⟩ := setUp_ok hL part hne hA hs
  have hr := h.run
  rw [if_pos (by have := List.length_pos_of_ne_nil hne; omega), h1] at hr
  injection hr with hr
  subst hr
  obtain ⟨j, hj, rfl⟩ := List.getElem_of_mem hx
  have := h4 j hj
  rw [hi] at this
  injection this with this
  rw [this]
  exact ⟨h2.ge (by omega), h2.le (by omega)⟩

/-- All ranks run together into undefined behaviour in `P`, in any context. -/
def ExecUB {α β : Type} (n : Nat) (P : Nat → Prog α β) (w : String) : Prop :=
  ∀ (γ : Type) (f : Nat → β → Prog α γ), ∃ Q, Steps n (fun r => P r >>= f r) Q ∧ ∀ r < n, Q r = .done (ub w)

theorem ExecUB.left {α β γ : Type} {n : Nat} {P : Nat → Prog α β} {w : String} {Q : Nat → β → Prog α γ} (h : ExecUB n P w) :
    ExecUB n (fun r => P r >>= Q r) w := by
  intro δ f
  have : (fun r => (P r >>= Q r) >>= f r) = (fun r => P r >>= fun b => Q r b >>= f r) := by
    funext r; exact Prog.bind_assoc _ _ _
  rw [this]
  exact h δ (fun r b => Q r b >>= f r)

theorem ExecUB.right {α β γ : Type} {n : Nat} {P : Nat → Prog α β} {v : Nat → β} {w : String} {Q : Nat → β → Prog α γ}
    (h1 : Exec n P v) (h2 : ExecUB n (fun r => Q r (v r)) w) : ExecUB n (fun r => P r >>= Q r) w := by
  intro δ f
  obtain ⟨S, hS, hS'⟩ := h2 δ f
  exact ⟨S, (h1.steps Q f).trans hS, hS'⟩

theorem ExecUB.local {α β : Type} {n : Nat} {P : Nat → Res β} {w : String} (h : ∀ r < n, P r = ub w) :
    ExecUB n (fun r => (Prog.lift (P r) : Prog α β)) w := by
  intro γ f
  exact ⟨fun _ => .done (ub w), .refl (fun r hr => by simp only; rw [h r hr]; rfl), fun _ _ => rfl⟩

theorem ExecUB.congr {α β : Type} {n : Nat} {P Q : Nat → Prog α β} {w : String} (hP : ∀ r < n, P r = Q r) (h : ExecUB n P w) :
    ExecUB n Q w := by
  intro γ f
  obtain ⟨S, hS, hS'⟩ := h γ f
  exact ⟨S, hS.congr_left (fun r hr => by rw [hP r hr]), hS'⟩

theorem ExecUB.hasUB {α β : Type} {n : Nat} {P : Nat → Prog α β} {w : String} (h : ExecUB n P w) {r : Nat} (hr : r < n) :
    HasUB n P r := by
  obtain ⟨Q, hQ, hQ'⟩ := h β (fun _ b => Pure.pure b)
  have e : (fun r => P r >>= fun b => Pure.pure b) = P := by
    funext r
    induction P r with
    | done r => cases r <;> rfl
    | call c k ih => simp only [Prog.call_bind]; congr 1; funext a; exact ih a
  rw [e] at hQ
  exact ⟨Q, hQ, w, hQ' r hr⟩

/-- The tables: all ranks reach the assignment, and there are more needed latitudes than ranks. -/
theorem latTables_nan {w : String} {cores : Nat} (hc : 1 ≤ cores) (c : Cfg) (off1 n1 off2 n2 : Nat → Nat)
    (hw1 : ∀ r < cores, off1 r + n1 r ≤ c.ntheta) (hw2 : ∀ r < cores, off2 r + n2 r ≤ c.ntheta)
    (S : List Nat) (hS : S.Nodup) (hcard : cores ≤ S.length)
    (hcov : ∀ i ∈ S, ∃ r < cores, (off1 r ≤ i ∧ i < off1 r + n1 r) ∨ (off2 r ≤ i ∧ i < off2 r + n2 r)) :
    ExecUB cores (fun r => latTables (F := F) (ub w) c cores r (off1 r) (n1 r) (off2 r) (n2 r)) w := by
  set N1 := (List.range cores).map (fun r => needRow c.ntheta (off1 r) (n1 r)) with hN1
  set N2 := (List.range cores).map (fun r => needRow c.ntheta (off2 r) (n2 r)) with hN2
  set need := List.zipWith (· || ·) (orCols N1 c.ntheta) (orCols N2 c.ntheta) with hneed
  have hrow : ∀ (off m i : Nat), i < c.ntheta → off ≤ i → i < off + m → (needRow c.ntheta off m).getD i false = true := by
    intro off m i h1 h2 h3
    simp [needRow, List.getD_eq_getElem?_getD, h1, h2, h3]
  have hmem : ∀ i ∈ S, need[i]? = some true := by
    intro i hi
    obtain ⟨r, hr, ⟨l1, l2⟩ | ⟨l1, l2⟩⟩ := hcov i hi
    · have hlt : i < c.ntheta := by have := hw1 r hr; omega
      have := orCols_get N1 c.ntheta i hlt _ (List.mem_map.mpr ⟨r, List.mem_range.mpr hr, rfl⟩) (hrow _ _ i hlt l1 l2)
      rw [hneed, List.getElem?_zipWith, this]
      have h' : (orCols N2 c.ntheta)[i]? = some ((orCols N2 c.ntheta)[i]'(by simp [orCols, hlt])) :=
        List.getElem?_eq_getElem _
      rw [h']; simp
    · have hlt : i < c.ntheta := by have := hw2 r hr; omega
      have := orCols_get N2 c.ntheta i hlt _ (List.mem_map.mpr ⟨r, List.mem_range.mpr hr, rfl⟩) (hrow _ _ i hlt l1 l2)
      rw [hneed, List.getElem?_zipWith, this]
      have h' : (orCols N1 c.ntheta)[i]? = some ((orCols N1 c.ntheta)[i]'(by simp [orCols, hlt])) :=
        List.getElem?_eq_getElem _
      rw [h']; simp
  have hmany : cores ≤ trues need := hcard.trans (card_le_trues need S hS hmem)
  unfold latTables
  refine ExecUB.right (Exec.local hc (v := fun r => needRow c.ntheta (off1 r) (n1 r)) (fun r hr => markNeed_eq (hw1 r hr))) ?_
  refine ExecUB.right (Exec.local hc (v := fun r => needRow c.ntheta (off2 r) (n2 r)) (fun r hr => markNeed_eq (hw2 r hr))) ?_
  refine ExecUB.right (allBor_exec hc (fun r => needRow c.ntheta (off1 r) (n1 r)) c.ntheta (fun r _ => by simp [needRow])) ?_
  refine ExecUB.right (allBor_exec hc (fun r => needRow c.ntheta (off2 r) (n2 r)) c.ntheta (fun r _ => by simp [needRow])) ?_
  refine ExecUB.right (allGather_exec hc (fun r => needRow c.ntheta (off1 r) (n1 r)) c.ntheta (fun r _ => by simp [needRow])) ?_
  refine ExecUB.right (allGather_exec hc (fun r => needRow c.ntheta (off2 r) (n2 r)) c.ntheta (fun r _ => by simp [needRow])) ?_
  exact ExecUB.left (ExecUB.local (fun r _ => (C60_conversion_iff hc r need w).mpr hmany))

/-- `todgen` when the samples touch at least as many rings as there are ranks. -/
theorem todgen_nan {e : Env F} {Ang : F → Prop} {v : Int} (hL : Laws { e with nan := ok v } Ang) {w : String} (hw : e.nan = ub w)
    {n : Nat} (hn : 1 ≤ n) {N : Nat} (hT : TagLaw F N) (Y : Nat → List (Row F)) (hN : ∀ r < n, (Y r).length ≤ N)
    (hA : ∀ r < n, ∀ y ∈ Y r, Ang y.theta)
    (hs : ∀ r < n, (Y r).Pairwise (fun p q => Arith.lt q.theta p.theta = false))
    (hv : ∀ r < n, ∀ y ∈ Y r, ∃ v, sampleSpec e y.phi y.theta y.psi = ok v)
    (k : Nat → Nat) (hk : ∀ r < n, k r = ((Y r).filter (fun y => Arith.lt y.theta Arith.halfpi)).length)
    (S : List Nat) (hS : S.Nodup) (hcard : n ≤ S.length) (hTouch : ∀ i ∈ S, Touched e.cfg n Y i) :
    ExecUB n (fun r => todgen e n r (k r) ((Y r).length - k r) (Y r)) w := by
  set e' : Env F := { e with nan := ok v } with he'
  have key := todgen_parts hL hT Y hN hA hs hv k hk
  choose No So su1 su2 out1 out2 hkey using key
  -- the windows of the ranks
  let off1 := fun r => (su1 r).off.toNat
  let n1 := fun r => (su1 r).n.toNat
  let off2 := fun r => (su2 r).off.toNat
  let n2 := fun r => (su2 r).n.toNat
  have hw1 : ∀ r < n, off1 r + n1 r ≤ e.cfg.ntheta := by
    intro r hr; have h := (hkey r hr).2.2.1; have a := h.off0; have b := h.n0; have c : _ ≤ (e.cfg.ntheta : Int) := h.win
    simp only [off1, n1]; omega
  have hw2 : ∀ r < n, off2 r + n2 r ≤ e.cfg.ntheta := by
    intro r hr; have h := (hkey r hr).2.2.2.1; have a := h.off0; have b := h.n0; have c : _ ≤ (e.cfg.ntheta : Int) := h.win
    simp only [off2, n2]; omega
  have hcov : ∀ i ∈ S, ∃ r < n, (off1 r ≤ i ∧ i < off1 r + n1 r) ∨ (off2 r ≤ i ∧ i < off2 r + n2 r) := by
    intro i hi
    obtain ⟨r, hr, y, hy, i0, h0, h1, h2⟩ := hTouch i hi
    obtain ⟨_, _, hem1, hem2, _, _, _, pN, pS, sN, sS⟩ := hkey r hr
    obtain ⟨j, hj, rfl⟩ := List.getElem_of_mem hy
    have hjX : j < (tagSig (Y r)).length := by simpa using hj
    have hth : (foldRow (tagSig (Y r))[j]).theta = foldGt (Y r)[j].theta := by simp [foldRow, tagSig]
    have hAng : ∀ q (hq : q < (tagSig (Y r)).length), Ang (foldRow (tagSig (Y r))[q]).theta ∧
        Arith.lt Arith.halfpi (foldRow (tagSig (Y r))[q]).theta = false := by
      intro q hq
      have hq' : q < (Y r).length := by simpa using hq
      have e1 : (foldRow (tagSig (Y r))[q]).theta = foldGt (Y r)[q].theta := by simp [foldRow, tagSig]
      rw [e1]
      have := hA r hr _ (List.getElem_mem hq')
      exact ⟨hL.fold _ this, hL.fold_le _ this⟩
    by_cases hjk : j < k r
    · have hm : foldRow (tagSig (Y r))[j] ∈ No r := pN.mem_iff.mpr (List.mem_map.mpr ⟨(tagSig (Y r))[j], by
        rw [List.mem_iff_getElem]
        exact ⟨j, by rw [List.length_take]; omega, by rw [List.getElem_take]⟩, rfl⟩)
      have hc := hemi_covers hL hem1 (by
        intro x hx
        obtain ⟨q, hq, _, rfl⟩ := mem_of_perm_take pN hx
        exact hAng q hq) sN hm (by rw [hth]; exact h0)
      have a := hem1.off0
      have b := hem1.n0
      have c' : e'.cfg.npoints = e.cfg.npoints := rfl
      rw [c'] at hc
      exact ⟨r, hr, Or.inl ⟨by simp only [off1]; omega, by simp only [off1, n1]; omega⟩⟩
    · have hm : foldRow (tagSig (Y r))[j] ∈ So r := pS.mem_iff.mpr (List.mem_map.mpr ⟨(tagSig (Y r))[j], by
        rw [List.mem_iff_getElem]
        refine ⟨j - k r, by rw [List.length_drop]; omega, ?_⟩
        rw [List.getElem_drop]
        congr 1; omega, rfl⟩)
      have hc := hemi_covers hL hem2 (by
        intro x hx
        obtain ⟨q, hq, _, rfl⟩ := mem_of_perm_drop pS hx
        exact hAng q hq) sS hm (by rw [hth]; exact h0)
      have a := hem2.off0
      have b := hem2.n0
      have c' : e'.cfg.npoints = e.cfg.npoints := rfl
      rw [c'] at hc
      exact ⟨r, hr, Or.inr ⟨by simp only [off2]; omega, by simp only [off2, n2]; omega⟩⟩
  unfold todgen
  refine ExecUB.right (Exec.local hn (v := No) (fun r hr => (hkey r hr).1)) ?_
  refine ExecUB.right (Exec.local hn (v := So) (fun r hr => (hkey r hr).2.1)) ?_
  refine ExecUB.right (barrier_exec hn) ?_
  refine ExecUB.left ?_
  unfold interpolTOD
  refine ExecUB.right (Exec.local hn (v := su1) (fun r hr => (hkey r hr).2.2.1.run)) ?_
  refine ExecUB.right (Exec.local hn (v := su2) (fun r hr => (hkey r hr).2.2.2.1.run)) ?_
  refine ExecUB.right (chatter_exec hn hL.verb) ?_
  refine ExecUB.left ?_
  unfold hemis
  refine ExecUB.left ?_
  refine ExecUB.congr (fun r hr => ?_) (latTables_nan (w := w) hn e.cfg off1 n1 off2 n2 hw1 hw2 S hS hcard hcov)
  have h1 := (hkey r hr).2.2.1
  have h2 := (hkey r hr).2.2.2.1
  simp only [off1, n1, off2, n2]
  rw [hw, Int.toNat_of_nonneg h1.off0, Int.toNat_of_nonneg h1.n0, Int.toNat_of_nonneg h2.off0, Int.toNat_of_nonneg h2.n0]

/-- `middle` when the samples touch at least as many rings as there are ranks. -/
theorem middle_nan {e : Env F} {Ang : F → Prop} {v : Int} (hL : Laws { e with nan := ok v } Ang) {w : String} (hw : e.nan = ub w)
    {n : Nat} (hn : 1 ≤ n) {N : Nat} (hT : TagLaw F N) (recv : Nat → List (Row F)) (hN : ∀ r < n, (recv r).length ≤ N)
    (hA : ∀ r < n, ∀ y ∈ recv r, Ang y.theta)
    (hv : ∀ r < n, ∀ y ∈ recv r, ∃ v, sampleSpec e y.phi y.theta y.psi = ok v)
    (S : List Nat) (hS : S.Nodup) (hcard : n ≤ S.length) (hTouch : ∀ i ∈ S, Touched e.cfg n recv i) :
    ExecUB n (fun r => middle e n r (recv r)) w := by
  obtain ⟨tag, htag⟩ := tag_exists (F := F) hT
  have key := middle_parts hL recv hA
  choose Y hY using key
  have hpt : ∀ r < n, ∀ y ∈ Y r, ∃ i, ∃ (h : i < (recv r).length), y.theta = (recv r)[i].theta ∧ y.phi = (recv r)[i].phi ∧
      y.psi = (recv r)[i].psi ∧ tag y = i ∧ readTag y = ok (i : Int) := by
    intro r hr y hy
    have := (hY r hr).2.1.mem_iff.mp hy
    obtain ⟨i, hi, rfl⟩ := List.getElem_of_mem this
    have hi' : i < (recv r).length := by simpa using hi
    refine ⟨i, hi', by simp [tagSig], by simp [tagSig], by simp [tagSig], ?_⟩
    exact htag _ i (by have := hN r hr; omega) (tagSig_get _ i hi)
  have hlen : ∀ r < n, (Y r).length = (recv r).length := by
    intro r hr; rw [(hY r hr).2.1.length_eq]; simp
  have hth : ∀ r < n, ((Y r).map Row.theta).Perm ((recv r).map Row.theta) := by
    intro r hr
    have h1 := ((hY r hr).2.1.map Row.theta)
    rwa [tagSig_map Row.theta (fun _ _ => rfl)] at h1
  unfold middle
  simp only
  refine ExecUB.right (Exec.local hn (v := Y) (fun r hr => (hY r hr).1)) ?_
  refine ExecUB.right (Exec.local hn (v := fun r => (Y r).map (fun y => (tag y : Int))) ?_) ?_
  · intro r hr
    apply mapM_ok
    intro y hy
    obtain ⟨i, _, _, _, _, h1, h2⟩ := hpt r hr y hy
    rw [h2, h1]
  have htg := todgen_nan hL hw hn hT Y (fun r hr => by rw [hlen r hr]; exact hN r hr)
    (by intro r hr y hy; obtain ⟨i, hi, h1, _⟩ := hpt r hr y hy; rw [h1]; exact hA r hr _ (List.getElem_mem hi))
    (fun r hr => (hY r hr).2.2)
    (by
      intro r hr y hy
      obtain ⟨i, hi, h1, h2, h3, _⟩ := hpt r hr y hy
      rw [h1, h2, h3]
      exact hv r hr _ (List.getElem_mem hi))
    (fun r => ((recv r).filter (fun y => Arith.lt y.theta Arith.halfpi)).length)
    (by
      intro r hr
      have h2 := ((hth r hr).filter (fun t => Arith.lt t Arith.halfpi)).length_eq
      rw [List.filter_map, List.filter_map, List.length_map, List.length_map] at h2
      exact h2.symm)
    S hS hcard (by
      intro i hi
      obtain ⟨r, hr, y, hy, i0, h⟩ := hTouch i hi
      have := (hth r hr).mem_iff.mpr (List.mem_map.mpr ⟨y, hy, rfl⟩)
      obtain ⟨z, hz, hzt⟩ := List.mem_map.mp this
      exact ⟨r, hr, z, hz, i0, by rw [hzt]; exact h⟩)
  exact ExecUB.left (ExecUB.congr (fun r hr => by rw [hlen r hr]) htg)

/-- **C60** (finding) Take any job that returns on a platform where the conversion of NaN yields some integer.  If its samples read at
least as many different rings as there are ranks then every rank executes the undefined conversion. -/
theorem C60_job_undefined {e : Env F} {Ang : F → Prop} {v : Int} {w : String} (hw : e.nan = ub w) {n : Nat} {R : Nat → List (Row F)}
    (hV : Valid { e with nan := ok v } Ang n R) {V : Nat → List (Row F)} (hret : Returns n (job { e with nan := ok v } n R) V)
    {S : List Nat} (hS : S.Nodup) (hcard : n ≤ S.length) (hTouch : ∀ i ∈ S, Touched e.cfg n R i) :
    ∀ r < n, HasUB n (job e n R) r := by
  have hn := hV.ranks
  have hT : TagLaw F (total R n) := by rw [← samples_length]; exact hV.tags
  obtain ⟨hrange, H, bounds, hH, hB, hpart⟩ := job_returns_inv _ hn R hT hret
  have hb : bounds.length = n := boundTable_length hn hB
  obtain ⟨tag, htag⟩ := tagOf_exists (F := F) hT
  have hprep := prepare_exec e hn R htag hrange H bounds hH hB
  have hne : ∃ r < n, R r ≠ [] := by
    cases hSe : S with
    | nil => rw [hSe] at hcard; simp at hcard; omega
    | cons i S' =>
      obtain ⟨r, hr, y, hy, _⟩ := hTouch i (by rw [hSe]; simp)
      exact ⟨r, hr, List.ne_nil_of_mem hy⟩
  have hact : ∀ r < n, active n bounds R r := by
    rcases hpart with h | h
    · exact h
    · obtain ⟨r, hr, h'⟩ := hne
      exact absurd (h r hr) h'
  intro r hr
  refine ExecUB.hasUB (w := w) (P := job e n R) ?_ hr
  unfold job convolve
  refine ExecUB.right hprep ?_
  unfold exchange
  refine ExecUB.right (v := recvOf n bounds R) ?_ ?_
  · simp only [segSize_outSeg hn]
    refine Exec.congr hn (fun r hr => ?_) (fun r hr => ?_) (sendRecv_exec (F := F) hn
      (fun s => (List.range n).map (toRank n bounds R s)) (inSegOf n bounds R) (outSegOf n bounds R)
      (fun r => (R r).length) (fun r => 5 * (recvOf n bounds R r).length)
      (fun r => 5 * (recvOf n bounds R r).length)
      (fun r hr => by have := active_iff.mp (hact r hr); omega)
      (fun s _ => by simp)
      (fun s _ => by simp [inSegOf, Function.comp_def])
      (fun r hr => by simp only [outSegOf, getD_map_range hr])
      (fun r hr => by simp only [recvOf, getD_map_range hr]))
    · rfl
    · simp only [recvOf, getD_map_range hr]
  refine ExecUB.left (middle_nan hV.laws hw hn hT (recvOf n bounds R) (recvOf_le hn hb R) ?_ ?_ S hS hcard ?_)
  · intro r hr y hy
    obtain ⟨s, hs, x, hx, h1, _⟩ := recvOf_mem y hy
    rw [h1]; exact hV.ang s hs x hx
  · intro r hr y hy
    obtain ⟨s, hs, x, hx, h1, h2, h3⟩ := recvOf_mem y hy
    rw [h1, h2, h3]; exact hV.defined s hs x hx
  · intro i hi
    obtain ⟨s, hs, y, hy, i0, h⟩ := hTouch i hi
    obtain ⟨d, hd, z, hz, hzt⟩ := recvOf_cover hn hb R hs hy
    exact ⟨d, hd, z, hz, i0, by rw [hzt]; exact h⟩

/-! ## exact arithmetic -/

/-- **C60** (finding) With at most `order + 1` ranks and at least one sample: every job that returns on a platform with a defined
conversion executes the undefined conversion on every rank. -/
theorem C60_real_undefined {e : Env ℝ} {v : Int} {w : String} (he : EnvOK { e with nan := ok v }) (hw : e.nan = ub w)
    (hord : e.cfg.order ≤ e.cfg.nphi) {n : ℕ} (hn : 1 ≤ n) (hfew : n ≤ e.cfg.order + 1) {R : ℕ → List (Row ℝ)} {V : ℕ → List (Row ℝ)}
    (hret : Returns n (job { e with nan := ok v } n R) V) (hne : ∃ r < n, R r ≠ []) :
    ∀ r < n, HasUB n (job e n R) r := by
  obtain ⟨s, hs, hne⟩ := hne
  obtain ⟨y, hy⟩ := List.exists_mem_of_ne_nil _ hne
  obtain ⟨i0, hi0⟩ := betaToItheta_real e.cfg (foldGt y.theta)
  have hr := betaToItheta_range hi0
  refine C60_job_undefined (w := w) hw (valid_real he hord hn R) hret
    (S := (List.range e.cfg.npoints).map (fun k => i0.toNat + k)) ?_ ?_ ?_
  · exact List.nodup_range.map (fun a b h => by simpa using h)
  · simp only [List.length_map, List.length_range]; unfold Cfg.npoints; omega
  · intro i hi
    obtain ⟨k, hk, rfl⟩ := List.mem_map.mp hi
    rw [List.mem_range] at hk
    exact ⟨s, hs, y, hy, i0, hi0, by omega, by push_cast; omega⟩

/-- **C60** (finding) One rank: every call of `convolve` with at least one sample and legal colatitudes off the equator executes the
undefined conversion. -/
theorem C60_single_rank {e : Env ℝ} {v : Int} {w : String} (he : EnvOK { e with nan := ok v }) (hw : e.nan = ub w)
    (hord : e.cfg.order ≤ e.cfg.nphi) (hnb : 0 < e.nbin) {rows : List (Row ℝ)} (hne : rows ≠ [])
    (hleg : ∀ y ∈ rows, 0 ≤ y.theta ∧ y.theta ≤ Real.pi ∧ y.theta ≠ Real.pi / 2) :
    HasUB 1 (job e 1 (fun _ => rows)) 0 := by
  have hC := (C59_outcome (e := { e with nan := ok v }) (n := 1) (R := fun _ => rows) he hord le_rfl hnb).2.2.2
  have hcuts : Cuts e.nbin 1 (fun _ => rows) (fun _ => 0) :=
    ⟨rfl, fun k hk => by omega, fun k hk => by omega, fun k hk => by omega, fun k hk => by omega⟩
  obtain ⟨V, hV⟩ := hC.mpr ⟨fun r _ y hy => hleg y hy, _, hcuts, Or.inr (fun s hs h => by
    obtain ⟨h1, _⟩ := h
    exact hne h1)⟩
  exact C60_real_undefined he hw hord le_rfl (by omega) hV ⟨0, by norm_num, hne⟩ 0 (by norm_num)

/-- C60 in full: the assignment of latitudes performs no undefined conversion, whatever the needed latitudes. -/
def C60_Full : Prop := ∀ (cores me : ℕ) (need : List Bool) (w : String), 1 ≤ cores → me < cores →
  ∃ t, assign (ub w) cores me need = ok t

theorem C60_full_refuted : ¬ C60_Full := by
  intro h
  obtain ⟨t, ht⟩ := h 1 0 [true] "NaN" le_rfl (by norm_num)
  rw [(C60_conversion_iff le_rfl 0 [true] "NaN").mpr (by decide)] at ht
  cases ht

/-- The platform of the examples with the conversion undefined. -/
noncomputable def nanEnv : Env ℝ := { codeEnv with nan := ub "NaN" }

/-- One rank, one sample at colatitude 1: undefined. -/
example : HasUB 1 (job nanEnv 1 (fun _ => [⟨0, 1, 0, 0, 0⟩])) 0 := by
  have h3 := Real.pi_gt_three
  refine C60_single_rank (e := nanEnv) (v := 0) (w := "NaN") ⟨codeEnv_ok.sort, codeEnv_ok.sched, ⟨0, rfl⟩, codeEnv_ok.verb, codeEnv_ok.ring_len, codeEnv_ok.kern⟩ rfl codeEnv_order
    (by norm_num [nanEnv, codeEnv]) (by simp) ?_
  intro y hy
  simp at hy; subst hy
  simp only
  exact ⟨by norm_num, by linarith, by intro h; linarith⟩

/-- Three needed latitudes on four ranks: no conversion; on three ranks: conversion. -/
example : (∃ t, assign (ub "NaN") 4 0 [true, true, false, true] = ok t) ∧ assign (ub "NaN") 3 0 [true, true, false, true] = ub "NaN" := by
  constructor
  · rw [C60_few_defined_partial (by norm_num) 0 _ "NaN" 7 (by decide)]
    obtain ⟨t, ht, _⟩ := assign_spec (nan := ok 7) ⟨7, rfl⟩ (cores := 4) (by omega) 0 [true, true, false, true]
    exact ⟨t, ht⟩
  · exact (C60_conversion_iff (by norm_num) 0 _ "NaN").mpr (by decide)

end Verif.Tod
