import Verif.Tod.Redist

/-!
# Gridding and interpolation

Model of the grid parameters set by the constructor (src/conviqt_math.cpp:138-151),
`weight_ncm_initialize`, `weight_ncm` (:220-265), `beta_to_itheta` (:590-608), `ithetacalc` (:627-640), `itheta0SetUp`
(:537-587), `ithetacalc` (:611-624) and `conviqt_tod_loop` (:1352-1443).

Data cube storage: `arr3(nphi, npsi, n)` is seen as `n` rings, a ring being the list of the
`2*nphi*npsi` doubles (re, im) in the order (iphi, ipsi) in which `alltoall_datacube`
transmits them.
-/

namespace Verif.Tod
open Verif Res

/-- What the constructor stores: `lmax`, `beammmax`, `order` (after its checks). -/
structure Cfg where
  lmax : Nat
  mbeam : Nat
  order : Nat
  deriving Repr, DecidableEq

namespace Cfg
/-- src/conviqt_math.cpp:138 -/
def npoints (c : Cfg) : Nat := c.order + 1
/-- :140 -/
def ioffset (c : Cfg) : Nat := c.order / 2
/-- :142 -/
def npsi (c : Cfg) : Nat := c.mbeam + 1
/-- :143 -/
def nphi (c : Cfg) : Nat := 2 * c.lmax + 1
/-- :147 -/
def halfmargin (c : Cfg) : Nat := c.npoints / 2 + 1
/-- :148 -/
def margin (c : Cfg) : Nat := 2 * c.halfmargin
/-- :149 -/
def ntheta (c : Cfg) : Nat := c.lmax + 1 + c.margin
/-- Number of doubles per ring, :1111. -/
def bufsize (c : Cfg) : Nat := c.nphi * c.npsi * 2

variable {F : Type} [Arith F]
/-- :144 `2 * pi / nphi` -/
def dphi (c : Cfg) : F := Arith.div (Arith.mul (Arith.ofInt 2) Arith.pi) (Arith.ofInt c.nphi)
/-- :145 -/
def invDphi (c : Cfg) : F := Arith.div (Arith.ofInt 1) c.dphi
/-- :141, :146 `halfpi / dphi` -/
def phioffset (c : Cfg) : F := Arith.div Arith.halfpi c.dphi
/-- :150 `-pi / (ntheta - margin)`; the negation of the literal is written `0 - pi`. -/
def dtheta (c : Cfg) : F :=
  Arith.div (Arith.sub (Arith.ofInt 0) Arith.pi) (Arith.ofInt ((c.ntheta : Int) - c.margin))
/-- :151 `pi - halfmargin * dtheta` -/
def theta0 (c : Cfg) : F := Arith.sub Arith.pi (Arith.mul (Arith.ofInt c.halfmargin) c.dtheta)
/-- :152 -/
def invDtheta (c : Cfg) : F := Arith.div (Arith.ofInt 1) c.dtheta
end Cfg

variable {F : Type} [Arith F]

/-! ## weights -/

/-- `base_wgt[m]`, src/conviqt_math.cpp:226-236: product of `m - n` over `n < m`, then over
`m < n < npoints`, inverted at the end.  (The vector is filled once per convolver and the value of
each entry does not depend on the others.) -/
def baseWgt1 (N m : Nat) : F :=
  let p : F := (List.range m).foldl (fun w (n : Nat) => Arith.mul w (Arith.ofInt ((m : Int) - n))) (Arith.ofInt 1)
  let q : F := (List.range' (m + 1) (N - (m + 1))).foldl
    (fun w (n : Nat) => Arith.mul w (Arith.ofInt ((m : Int) - n))) p
  Arith.div (Arith.ofInt 1) q

/-- `weight_ncm_initialize`, src/conviqt_math.cpp:220-241. -/
def baseWgt (N : Nat) : List F := (List.range N).map (baseWgt1 N)

/-- First loop of `weight_ncm`, src/conviqt_math.cpp:252-256: iteration `m = i + 1`. -/
def wgtUp (x : F) (i : Nat) (s : List F × F) : Res (List F × F) := do
  let m : Int := i + 1
  let w ← rd s.1 m
  let wgt ← wr s.1 m (Arith.mul w s.2)
  ok (wgt, Arith.mul s.2 (Arith.sub x (Arith.ofInt m)))

/-- Second loop of `weight_ncm`, src/conviqt_math.cpp:258-264: iteration `m = i + 1`. -/
def wgtDown (N : Nat) (x : F) (i : Nat) (s : List F × F) : Res (List F × F) := do
  let m : Int := i + 1
  let doffset := Arith.add (Arith.sub x (Arith.ofInt N)) (Arith.ofInt 1)
  let w ← rd s.1 ((N : Int) - 1 - m)
  let wgt ← wr s.1 ((N : Int) - 1 - m) (Arith.mul w s.2)
  ok (wgt, Arith.mul s.2 (Arith.add doffset (Arith.ofInt m)))

/-- `weight_ncm`, src/conviqt_math.cpp:244-265. -/
def weightNcm (N : Nat) (x : F) : Res (List F) := do
  let s ← forN (N - 1) (wgtUp x) (baseWgt N, x)
  let t ← forN (N - 1) (wgtDown N x) (s.1, Arith.add (Arith.sub x (Arith.ofInt N)) (Arith.ofInt 1))
  ok t.1

/-! ## ring index -/

/-- `beta_to_itheta`, src/conviqt_math.cpp:590-608. -/
def betaToItheta (c : Cfg) (beta0 : F) : Res Int := do
  let beta := foldGt beta0
  let i ← toInt (Arith.mul (Arith.sub beta c.theta0) (c.invDtheta : F))
  let itheta := i - c.ioffset
  let itheta := if itheta > (c.ntheta : Int) - c.npoints then (c.ntheta : Int) - c.npoints else itheta
  ok (if itheta < 0 then 0 else itheta)

/-- Search loop for `lowerIndex`, src/conviqt_math.cpp:556-563: `k` is `ii + 1`; `none found` keeps
the fill value `ntod`. -/
def lowerScan (it : List Int) (b : Int) (dflt : Nat) : Nat → Nat
  | 0 => dflt
  | k + 1 => if it.getD k 0 > b then k else lowerScan it b dflt k

/-- Search loop for `upperIndex`, src/conviqt_math.cpp:565-574: fill value 0. -/
def upperScan (it : List Int) (b : Int) : Nat → Nat → Nat
  | 0, _ => 0
  | k + 1, ii => if it.getD ii 0 ≤ b then ii else upperScan it b k (ii + 1)

/-- Result of `itheta0SetUp` for `ntod ≥ 1` rows: ring index of every row, first ring
(`ithetaoffset`) and number of rings (`NThetaIndex`), src/conviqt_math.cpp:549-551, 1296-1306. -/
structure SetUp where
  it : List Int
  off : Int
  n : Int
  deriving Repr, DecidableEq

def setUp (c : Cfg) (rows : List (Row F)) : Res SetUp := do
  let it ← rows.mapM (fun r => betaToItheta c r.theta)
  let first ← rd it 0
  let last ← rd it ((rows.length : Int) - 1)
  let n := first - last + c.npoints
  if n < 0 then throw "bad_alloc" else ok ⟨it, last, n⟩

/-! ## conviqt_tod_loop -/

/-- `fmodulo`, levels/cxxsupport/ls_math_utils.h:72-80 -/
def fmodulo (v1 v2 : F) : F :=
  if Arith.le (Arith.ofInt 0) v1 then
    if Arith.lt v1 v2 then v1 else Arith.fmod v1 v2
  else
    let tmp := Arith.add (Arith.fmod v1 v2) v2
    if Arith.eqb tmp v2 then Arith.ofInt 0 else tmp

/-- `cosang`, `sinang` before `cosang[0] = 0.5`, src/conviqt_math.cpp:1414-1419: entry `k` is the
`k`-fold iterate of the angle addition. -/
def angIter (cosomg sinomg : F) : Nat → F × F
  | 0 => (Arith.ofInt 1, Arith.ofInt 0)
  | k + 1 =>
    let p := angIter cosomg sinomg k
    (Arith.sub (Arith.mul p.1 cosomg) (Arith.mul p.2 sinomg),
     Arith.add (Arith.mul p.2 cosomg) (Arith.mul p.1 sinomg))

/-- The vectors `cosang`, `sinang`, src/conviqt_math.cpp:1411-1420. -/
def angles (npsi : Nat) (psi : F) : List (F × F) :=
  let omega := Arith.add psi Arith.halfpi
  (List.range npsi).map (fun k =>
    if k = 0 then (Arith.half, (Arith.ofInt 0 : F)) else angIter (Arith.cos omega) (Arith.sin omega) k)

/-- Inner sum over `ipsi`, src/conviqt_math.cpp:1429-1432. -/
def ringDot (c : Cfg) (ring : List F) (ang : List (F × F)) (iphi : Int) : Res F :=
  forN c.npsi (fun ipsi x => do
    let a ← rd ang (ipsi : Int)
    let re ← rd ring (2 * (iphi * c.npsi + ipsi))
    let im ← rd ring (2 * (iphi * c.npsi + ipsi) + 1)
    ok (Arith.add x (Arith.sub (Arith.mul a.1 re) (Arith.mul a.2 im)))) (Arith.ofInt 0)

/-- Longitude cell and fraction, src/conviqt_math.cpp:1400-1408. -/
def phiCell (c : Cfg) (phi : F) : Res (Int × F) := do
  let f0 := Arith.sub (Arith.mul phi c.invDphi) (c.phioffset : F)
  let f := fmodulo f0 (Arith.ofInt c.nphi)
  let i ← toInt f
  let iphi0 := i - c.ioffset
  let frac := Arith.sub f (Arith.ofInt iphi0)
  let iphi0 := if iphi0 ≥ c.nphi then iphi0 - c.nphi else if iphi0 < 0 then iphi0 + c.nphi else iphi0
  ok (iphi0, frac)

/-- Body of the sample loop of `conviqt_tod_loop`, src/conviqt_math.cpp:1394-1435: contribution of
ring number `lat` (`thetaoffset`) to the value `acc` of one sample with first ring `it0`. -/
def accum (c : Cfg) (row : Row F) (it0 lat : Int) (ring : List F) (acc : F) : Res F := do
  let frac := Arith.sub (Arith.mul (Arith.sub row.theta c.theta0) (c.invDtheta : F)) (Arith.ofInt it0)
  let wgt1 ← weightNcm c.npoints frac
  let cell ← phiCell c row.phi
  let wgt2 ← weightNcm c.npoints cell.2
  let ang := angles c.npsi row.psi
  let w1 ← rd wgt1 (lat - it0)
  let weight1 := Arith.mul (Arith.ofInt 2) w1
  forN c.npoints (fun iphi acc => do
    let w2 ← rd wgt2 (iphi : Int)
    let weight := Arith.mul w2 weight1
    let iphinew := cell.1 + iphi
    let iphinew := if iphinew ≥ c.nphi then iphinew - c.nphi else iphinew
    let x ← ringDot c ring ang iphinew
    ok (Arith.add acc (Arith.mul weight x))) acc

/-- Indices visited by the parallel sample loop for one ring, src/conviqt_math.cpp:1394. -/
def window (c : Cfg) (su : SetUp) (jj : Nat) : List Nat :=
  let lower := lowerScan su.it (su.off + jj - c.npoints) su.it.length su.it.length
  let upper := upperScan su.it (su.off + jj) su.it.length 0
  (List.range' upper (lower + 1 - upper)).reverse

/-- One sample of the parallel loop: `TODValue[ii] += …`. -/
def sampleStep (c : Cfg) (rows : List (Row F)) (su : SetUp) (ring : List F) (jj : Nat)
    (tod : List F) (ii : Nat) : Res (List F) := do
  let row ← rd rows (ii : Int)
  let it0 ← rd su.it (ii : Int)
  let v ← rd tod (ii : Int)
  let v' ← accum c row it0 (jj + su.off) ring v
  wr tod (ii : Int) v'

/-- `conviqt_tod_loop`, src/conviqt_math.cpp:1352-1443.  The iterations of the OpenMP loop are
executed in the order `sched (window …)`; `sched` stands for any schedule (all temporaries of an
iteration are private, an iteration writes only `TODValue[ii]`). -/
def todLoop (c : Cfg) (sched : List Nat → List Nat) (rows : List (Row F)) (su : SetUp)
    (rings : List (List F)) (jj : Nat) (tod : List F) : Res (List F) := do
  let ring ← rd rings (jj : Int)
  foldRes (sampleStep c rows su ring jj) tod (sched (window c su jj))

/-- The loop over rings of `interpolTOD`, src/conviqt_math.cpp:1332-1342, on a zero-filled
`TODValue` (:498, :504). -/
def interpolate (c : Cfg) (sched : List Nat → List Nat) (rows : List (Row F)) (su : SetUp)
    (rings : List (List F)) : Res (List F) :=
  forN su.n.toNat (todLoop c sched rows su rings) (List.replicate rows.length (Arith.ofInt 0))

/-! ## facts -/

theorem ntheta_ge (c : Cfg) : c.npoints ≤ c.ntheta := by
  unfold Cfg.ntheta Cfg.margin Cfg.halfmargin Cfg.npoints; omega

theorem betaToItheta_range {c : Cfg} {t : F} {i : Int} (h : betaToItheta c t = ok i) :
    0 ≤ i ∧ i + c.npoints ≤ c.ntheta := by
  unfold betaToItheta at h
  rw [bind_eq_ok] at h
  obtain ⟨j, _, h⟩ := h
  have := ntheta_ge c
  injection h with h
  subst h
  split <;> split <;> omega

theorem lowerScan_spec (it : List Int) (b : Int) (dflt : Nat) : ∀ k,
    (∃ i < k, it.getD i 0 > b) →
    lowerScan it b dflt k < k ∧ it.getD (lowerScan it b dflt k) 0 > b ∧
      ∀ i < k, it.getD i 0 > b → i ≤ lowerScan it b dflt k := by
  intro k
  induction k with
  | zero => rintro ⟨i, hi, _⟩; omega
  | succ k ih =>
    rintro ⟨i, hi, hb⟩
    unfold lowerScan
    by_cases h : it.getD k 0 > b
    · rw [if_pos h]; exact ⟨by omega, h, fun i hi _ => by omega⟩
    · rw [if_neg h]
      have hik : i ≠ k := by rintro rfl; exact h hb
      obtain ⟨h1, h2, h3⟩ := ih ⟨i, by omega, hb⟩
      refine ⟨by omega, h2, fun j hj hbj => ?_⟩
      have : j ≠ k := by rintro rfl; exact h hbj
      exact h3 j (by omega) hbj

theorem upperScan_spec (it : List Int) (b : Int) : ∀ k ii,
    (∃ i, ii ≤ i ∧ i < ii + k ∧ it.getD i 0 ≤ b) →
    ii ≤ upperScan it b k ii ∧ upperScan it b k ii < ii + k ∧ it.getD (upperScan it b k ii) 0 ≤ b ∧
      ∀ i, ii ≤ i → i < ii + k → it.getD i 0 ≤ b → upperScan it b k ii ≤ i := by
  intro k
  induction k with
  | zero => rintro ii ⟨i, h1, h2, _⟩; omega
  | succ k ih =>
    rintro ii ⟨i, h1, h2, hb⟩
    unfold upperScan
    by_cases h : it.getD ii 0 ≤ b
    · rw [if_pos h]; exact ⟨le_rfl, by omega, h, fun i hi _ _ => hi⟩
    · rw [if_neg h]
      have hne : i ≠ ii := by rintro rfl; exact h hb
      obtain ⟨g1, g2, g3, g4⟩ := ih (ii + 1) ⟨i, by omega, by omega, hb⟩
      refine ⟨by omega, by omega, g3, fun j hj1 hj2 hj3 => ?_⟩
      have : j ≠ ii := by rintro rfl; exact h hj3
      exact g4 j (by omega) (by omega) hj3

/-- The setup result is consistent with rows whose ring indices do not increase. -/
structure SetUpOK (c : Cfg) (su : SetUp) : Prop where
  ne : su.it ≠ []
  desc : ∀ i j, i ≤ j → j < su.it.length → su.it.getD j 0 ≤ su.it.getD i 0
  off : su.off = su.it.getD (su.it.length - 1) 0
  n : su.n = su.it.getD 0 0 - su.off + c.npoints

theorem SetUpOK.ge {c : Cfg} {su : SetUp} (h : SetUpOK c su) {i : Nat} (hi : i < su.it.length) :
    su.off ≤ su.it.getD i 0 := by
  rw [h.off]; exact h.desc i _ (by omega) (by omega)

theorem SetUpOK.le {c : Cfg} {su : SetUp} (h : SetUpOK c su) {i : Nat} (hi : i < su.it.length) :
    su.it.getD i 0 + c.npoints ≤ su.off + su.n := by
  rw [h.n]; have := h.desc 0 i (by omega) hi; omega

/-- The window of ring `jj` contains exactly the samples whose stencil covers the ring. -/
theorem mem_window {c : Cfg} {su : SetUp} (h : SetUpOK c su) {jj : Nat} (hjj : (jj : Int) < su.n)
    (ii : Nat) : ii ∈ window c su jj ↔
      ii < su.it.length ∧ su.it.getD ii 0 ≤ su.off + jj ∧ su.off + jj < su.it.getD ii 0 + c.npoints := by
  have hlen : 0 < su.it.length := List.length_pos_of_ne_nil h.ne
  obtain ⟨l1, l2, l3⟩ := lowerScan_spec su.it (su.off + jj - c.npoints) su.it.length su.it.length
    ⟨0, hlen, by have := h.n; omega⟩
  obtain ⟨u1, u2, u3, u4⟩ := upperScan_spec su.it (su.off + jj) su.it.length 0
    ⟨su.it.length - 1, by omega, by omega, by rw [← h.off]; omega⟩
  unfold window
  simp only [List.mem_reverse, List.mem_range'_1]
  constructor
  · rintro ⟨h1, h2⟩
    have hii : ii < su.it.length := by omega
    refine ⟨hii, ?_, ?_⟩
    · exact le_trans (h.desc _ _ h1 hii) u3
    · have := h.desc ii (lowerScan su.it (su.off + jj - c.npoints) su.it.length su.it.length)
        (by omega) l1
      omega
  · rintro ⟨h1, h2, h3⟩
    have a := u4 ii (by omega) (by omega) h2
    have b := l3 ii h1 (by omega)
    omega

theorem window_nodup (c : Cfg) (su : SetUp) (jj : Nat) : (window c su jj).Nodup := by
  unfold window
  exact List.nodup_reverse.mpr (List.nodup_range')

theorem forN_prefix {σ : Type} {f : Nat → σ → Res σ} {s t : σ} {n : Nat} (h : forN n f s = ok t) :
    ∀ k ≤ n, ∃ u, forN k f s = ok u := by
  intro k hk
  induction n generalizing t with
  | zero => obtain rfl : k = 0 := by omega
            exact ⟨s, rfl⟩
  | succ n ih =>
    by_cases e : k = n + 1
    · subst e; exact ⟨t, h⟩
    · rw [forN_succ, bind_eq_ok] at h
      obtain ⟨u, hu, _⟩ := h
      exact ih hu (by omega)

/-- One pass over a duplicate-free list of indices updates each listed entry once. -/
theorem foldRes_update {β : Type} (step : List β → Nat → Res (List β)) (g : Nat → β → β) :
    ∀ (idx : List Nat) (tod : List β), idx.Nodup → (∀ i ∈ idx, i < tod.length) →
    (∀ t : List β, t.length = tod.length → ∀ i ∈ idx, ∀ (h : i < t.length), t[i]? = tod[i]? →
        step t i = ok (t.set i (g i t[i]))) →
    ∃ out, foldRes step tod idx = ok out ∧ out.length = tod.length ∧
      (∀ i ∈ idx, out[i]? = (tod[i]?).map (g i)) ∧ (∀ i, i ∉ idx → out[i]? = tod[i]?) := by
  intro idx
  induction idx with
  | nil => intro tod _ _ _; exact ⟨tod, rfl, rfl, by simp, by simp⟩
  | cons i idx ih =>
    intro tod hnd hlt hstep
    have hi := hlt i (by simp)
    rw [List.nodup_cons] at hnd
    have h0 := hstep tod rfl i (by simp) hi rfl
    obtain ⟨out, h1, h2, h3, h4⟩ := ih (tod.set i (g i tod[i])) hnd.2
      (fun j hj => by simpa using hlt j (by simp [hj]))
      (by
        intro t ht j hj hjt he
        have hne : i ≠ j := by rintro rfl; exact hnd.1 hj
        exact hstep t (by simpa using ht) j (by simp [hj]) hjt (by rw [he, List.getElem?_set_ne hne]))
    refine ⟨out, ?_, by simpa using h2, ?_, ?_⟩
    · rw [foldRes_cons, h0]; exact h1
    · intro j hj
      rcases List.mem_cons.mp hj with rfl | hj
      · rw [h4 j hnd.1]; simp [hi]
      · have hne : i ≠ j := by rintro rfl; exact hnd.1 hj
        rw [h3 j hj, List.getElem?_set_ne hne]
    · intro j hj
      rw [List.mem_cons, not_or] at hj
      rw [h4 j hj.2, List.getElem?_set_ne (fun h => hj.1 h.symm)]

/-- The value of one sample: contributions of its `npoints` rings, in ascending order. -/
def sampleValue (c : Cfg) (ring : Int → List F) (row : Row F) (it0 : Int) (k : Nat) : Res F :=
  forN k (fun k acc => accum c row it0 (it0 + k) (ring (it0 + k)) acc) (Arith.ofInt 0)

theorem interpolate_spec {c : Cfg} {sched : List Nat → List Nat} (hsched : ∀ l, (sched l).Perm l)
    {rows : List (Row F)} {su : SetUp} (h : SetUpOK c su) (hlen : su.it.length = rows.length)
    {rings : List (List F)} {ring : Int → List F} (hn : (rings.length : Int) = su.n)
    (hrings : ∀ jj : Nat, jj < rings.length → rings[jj]? = some (ring (su.off + jj)))
    {v : Nat → F}
    (hv : ∀ ii (hi : ii < rows.length), sampleValue c ring rows[ii] (su.it.getD ii 0) c.npoints = ok (v ii)) :
    interpolate c sched rows su rings = ok ((List.range rows.length).map v) := by
  have hsn : su.n.toNat = rings.length := by omega
  -- number of rings of sample ii below ring off+jj
  let K : Nat → Nat → Nat := fun jj ii => min c.npoints (su.off + jj - su.it.getD ii 0).toNat
  have inv : ∃ tod, interpolate c sched rows su rings = ok tod ∧ (tod.length = rows.length ∧
      ∀ ii (hi : ii < rows.length), ∃ u, tod[ii]? = some u ∧
        sampleValue c ring rows[ii] (su.it.getD ii 0) (K su.n.toNat ii) = ok u) := by
    unfold interpolate
    apply forN_inv su.n.toNat _ _ (fun jj (tod : List F) => tod.length = rows.length ∧
      ∀ ii (hi : ii < rows.length), ∃ u, tod[ii]? = some u ∧
        sampleValue c ring rows[ii] (su.it.getD ii 0) (K jj ii) = ok u)
    · refine ⟨by simp, fun ii hi => ⟨Arith.ofInt 0, by simp [hi], ?_⟩⟩
      have : K 0 ii = 0 := by
        have := h.ge (i := ii) (by omega)
        simp only [K]; omega
      rw [this]; rfl
    · intro jj tod hjj ⟨hl, htod⟩
      unfold todLoop
      rw [rd_nat (by omega)]
      simp only [ok_bind]
      have hr : rings[jj] = ring (su.off + jj) := by
        have := hrings jj (by omega)
        rw [List.getElem?_eq_getElem (by omega)] at this
        exact Option.some.inj this
      rw [hr]
      have hjn : (jj : Int) < su.n := by omega
      have hmem : ∀ ii, ii ∈ sched (window c su jj) ↔ ii < su.it.length ∧
          su.it.getD ii 0 ≤ su.off + jj ∧ su.off + jj < su.it.getD ii 0 + c.npoints := fun ii => by
        rw [(hsched _).mem_iff]; exact mem_window h hjn ii
      have hnd : (sched (window c su jj)).Nodup := (hsched _).nodup_iff.mpr (window_nodup c su jj)
      -- the value after this ring
      have hex : ∀ ii (hi : ii < rows.length), ∃ w, sampleValue c ring rows[ii] (su.it.getD ii 0) (K (jj + 1) ii) = ok w := by
        intro ii hi
        exact forN_prefix (hv ii hi) _ (Nat.min_le_left _ _)
      classical
      let g : Nat → F → F := fun ii _ => if hi : ii < rows.length then (hex ii hi).choose else Arith.ofInt 0
      have hstep : ∀ t : List F, t.length = tod.length → ∀ i ∈ sched (window c su jj), ∀ (ht : i < t.length),
          t[i]? = tod[i]? → sampleStep c rows su (ring (su.off + jj)) jj t i = ok (t.set i (g i t[i])) := by
        intro t htl i hi ht he
        obtain ⟨m1, m2, m3⟩ := (hmem i).mp hi
        have hir : i < rows.length := by omega
        obtain ⟨u, hu1, hu2⟩ := htod i hir
        have htu : t[i] = u := by
          have : t[i]? = some u := by rw [he, hu1]
          rw [List.getElem?_eq_getElem ht] at this
          exact Option.some.inj this
        have hit : su.it.getD i 0 = su.it[i] := by simp [List.getD_eq_getElem?_getD, m1]
        unfold sampleStep
        rw [rd_nat hir, rd_nat m1, rd_nat ht]
        simp only [ok_bind]
        have hK : K (jj + 1) i = K jj i + 1 := by simp only [K]; omega
        have hKv : ((K jj i : Nat) : Int) = su.off + jj - su.it.getD i 0 := by simp only [K]; omega
        have hw := (hex i hir).choose_spec
        have hg : g i t[i] = (hex i hir).choose := by simp only [g, dif_pos hir]
        rw [hg]
        generalize (hex i hir).choose = wv at hw ⊢
        rw [hK] at hw
        unfold sampleValue at hw hu2
        rw [forN_succ, hu2, ok_bind, hKv] at hw
        have e1 : su.it.getD i 0 + (su.off + jj - su.it.getD i 0) = jj + su.off := by omega
        rw [e1] at hw
        have e2 : su.off + (jj : Int) = jj + su.off := by omega
        rw [e2, htu, ← hit, hw]
        simp only [ok_bind]
        rw [wr_nat _ ht]
      obtain ⟨out, o1, o2, o3, o4⟩ := foldRes_update _ g (sched (window c su jj)) tod hnd
        (fun i hi => by have := ((hmem i).mp hi).1; omega) hstep
      refine ⟨out, o1, by omega, ?_⟩
      intro ii hi
      by_cases hin : ii ∈ sched (window c su jj)
      · rw [o3 ii hin]
        obtain ⟨u, hu, _⟩ := htod ii hi
        refine ⟨(hex ii hi).choose, ?_, (hex ii hi).choose_spec⟩
        rw [hu]; simp [g, hi]
      · obtain ⟨u, hu1, hu2⟩ := htod ii hi
        refine ⟨u, by rw [o4 ii hin, hu1], ?_⟩
        have : K (jj + 1) ii = K jj ii := by
          rw [hmem] at hin
          simp only [K]
          have := h.ge (i := ii) (by omega)
          omega
        rw [this]; exact hu2
  obtain ⟨tod, h1, h2, h3⟩ := inv
  rw [h1]
  congr 1
  apply List.ext_getElem?
  intro ii
  by_cases hi : ii < rows.length
  · obtain ⟨u, hu1, hu2⟩ := h3 ii hi
    have hK : K su.n.toNat ii = c.npoints := by
      have a := h.le (i := ii) (by omega)
      have b := h.ge (i := ii) (by omega)
      simp only [K]; omega
    rw [hK, hv ii hi] at hu2
    injection hu2 with hu2
    rw [hu1, ← hu2]
    simp [hi]
  · rw [List.getElem?_eq_none (by omega), List.getElem?_eq_none (by simp; omega)]

end Verif.Tod
