import Verif.Tod.Cube

/-!
# `convolver::convolve`

Model of `convolver::convolve` (src/conviqt_math.cpp:1479-1672), `todgen` (:481-534),
`arrFillingcm` (:1446-1476), `interpolTOD` (:1277-1349), `distribute_colatitudes` (:268-325) and
`hpsort_arr` (src/conviqt_util.cpp:52-98) as an SPMD program.
Allocation failure, the values of the timers and the text of the log are not modelled; the collectives that the log performs
are (barriers for `verbosity > 5`, the reductions of `report_timing` for `verbosity > 0`).  The `pntarr` buffer is seen as a list of rows;
`pntarr.size()` is taken to be a multiple of five.
-/

namespace Verif.Tod
open Verif Res Spmd

variable {F : Type} [Arith F]

/-- Everything `convolve` reads apart from the pointing. -/
structure Env (F : Type) where
  cfg : Cfg
  /-- number of bins of the latitude histogram; the code uses 100000 (src/conviqt_math.cpp:285) -/
  nbin : Nat
  /-- what a rank computes for the rings it owns (rank, ring numbers): their data in the northern and southern hemisphere -/
  kern : Nat → List Nat → Res (List (List F) × List (List F))
  /-- specification only: data of a ring of the data cube (`false`: northern, `true`: southern); see `Laws.kern` -/
  ring : Bool → Nat → List F
  /-- result of converting NaN to `long` (undefined in C++) in `get_latitude_tables` -/
  nan : Res Int
  /-- what `std::sort` does with the (key, index) pairs -/
  srt : List (F × Nat) → List (F × Nat)
  /-- OpenMP schedule -/
  sched : List Nat → List Nat
  /-- argument `calibrate` -/
  calibrate : Bool
  /-- `b->normalized()` -/
  normalized : Bool
  /-- `d->get_epsilon()` -/
  eps : F
  /-- argument `verbosity` of the constructor on every rank (src/conviqt_math.cpp:112-116) -/
  verb : Nat → Int := fun _ => 0

/-- `hpsort_arr(ra, 1)`, src/conviqt_util.cpp:52-98: pairs (theta, index) are sorted by theta; the
theta column is copied from the pairs, the other columns are gathered. -/
def hpsortTheta (srt : List (F × Nat) → List (F × Nat)) (rows : List (Row F)) : Res (List (Row F)) :=
  (srt (rows.zipIdx.map (fun p => (p.1.theta, p.2)))).mapM (fun (p : F × Nat) => do
    let r ← rd rows (p.2 : Int)
    ok { r with theta := p.1 })

/-- `for (ii) rows[ii].sig = ii` (src/conviqt_math.cpp:490-492, 1537-1541, 1581-1583) -/
def tagSig (rows : List (Row F)) : List (Row F) :=
  rows.mapIdx (fun ii r => { r with sig := Arith.ofInt ii })

/-- `for (ii) rows[ii].time = my_offset + ii` (src/conviqt_math.cpp:1502-1504) -/
def setTime (off : Int) (rows : List (Row F)) : List (Row F) :=
  rows.mapIdx (fun ii r => { r with time := Arith.ofInt (off + ii) })

/-- `long(row.sig + .5)` (src/conviqt_math.cpp:520, 527, 1552, 1593) -/
def readTag (r : Row F) : Res Int := toInt (Arith.add r.sig Arith.half)

/-- Theta check, src/conviqt_math.cpp:1508-1514. -/
def checkTheta (rows : List (Row F)) : Res Unit :=
  foldRes (fun _ (r : Row F) =>
    if Arith.lt r.theta (Arith.ofInt 0) || Arith.lt Arith.pi r.theta then
      throw "convolver::convolve: Illegal theta" else ok ()) () rows

/-- `distribute_colatitudes`, src/conviqt_math.cpp:268-325. -/
def distribute (nbin cores : Nat) (rows : List (Row F)) : Prog F (List F) := do
  let total ← allSum rows.length
  let mine ← Prog.lift (localHits nbin rows)
  let hits ← allSumArr mine
  Prog.lift (boundTable nbin cores hits total)

/-- `arrFillingcm`, src/conviqt_math.cpp:1446-1476. -/
def arrFilling (srt : List (F × Nat) → List (F × Nat)) (ntod : Nat) (rows : List (Row F)) (off : Nat) :
    Res (List (Row F)) := do
  let part ← sliceChk rows off ntod
  hpsortTheta srt (part.map (fun r => { r with theta := foldGt r.theta }))

/-- A program several times in sequence. -/
def times (p : Prog F Unit) : Nat → Prog F Unit
  | 0 => Prog.lift (ok ())
  | k + 1 => p >>= fun _ => times p k

/-- The barriers a rank performs for its log if `verbosity > 5`: one for every rank in `interpolTOD`
(src/conviqt_math.cpp:1308-1320) and one on entry of `conviqt_hemiscm` (:655-658) or `conviqt_hemiscm_pol` (:907-910). -/
def chatter (v : Int) (cores : Nat) : Prog F Unit :=
  if 5 < v then times barrier (cores + 1) else Prog.lift (ok ())

/-- `timing_line`, src/conviqt_math.cpp:1705-1739: eight reductions; the results are only printed. -/
def timingLine : Prog F Unit := do
  reduceCall .min false false
  reduceCall .max false false
  reduceCall .sum false true
  reduceCall .sum false false
  reduceCall .min true false
  reduceCall .max true false
  reduceCall .sum false true
  reduceCall .sum false false

/-- `if (verbosity > 0) report_timing();`, src/conviqt_math.cpp:1666-1669 and 1674-1703: 18 timing lines. -/
def reportTiming (v : Int) : Prog F Unit :=
  if 0 < v then times timingLine 18 else Prog.lift (ok ())

/-- `interpolTOD`, src/conviqt_math.cpp:1277-1349. -/
def interpolTOD (e : Env F) (cores me : Nat) (north south : List (Row F)) :
    Prog F (List F × List F) := do
  let su1 ← Prog.lift (if north.length ≠ 0 then setUp e.cfg north else ok ⟨[], 0, 0⟩)
  let su2 ← Prog.lift (if south.length ≠ 0 then setUp e.cfg south else ok ⟨[], 0, 0⟩)
  chatter (e.verb me) cores
  let t ← hemis e.nan e.cfg cores me (e.kern me) su1.off su1.n su2.off su2.n
  let v1 ← Prog.lift (interpolate e.cfg e.sched north su1 t.1)
  let v2 ← Prog.lift (interpolate e.cfg e.sched south su2 t.2)
  Prog.lift (ok (v1, v2))

/-- Copy back of the values, src/conviqt_math.cpp:519-531. -/
def scatterSig (rows : List (Row F)) (ps : List (Row F × F)) : Res (List (Row F)) :=
  foldRes (fun rows (p : Row F × F) => do
    let old ← readTag p.1
    let r ← rd rows old
    wr rows old { r with sig := p.2 }) rows ps

/-- `todgen`, src/conviqt_math.cpp:481-534. -/
def todgen (e : Env F) (cores me : Nat) (ntod1 ntod2 : Nat) (rows0 : List (Row F)) :
    Prog F (List (Row F)) := do
  let rows := tagSig rows0
  let north ← Prog.lift (if ntod1 ≠ 0 then arrFilling e.srt ntod1 rows 0 else ok [])
  let south ← Prog.lift (if ntod2 ≠ 0 then arrFilling e.srt ntod2 rows ntod1 else ok [])
  barrier
  let v ← interpolTOD e cores me north south
  let rows ← Prog.lift (scatterSig rows (north.zip v.1))
  Prog.lift (scatterSig rows (south.zip v.2))

/-- `all2allv` of row buffers. -/
def a2avRows (cores : Nat) (rows : List (Row F)) (sc sd rc rdp : List Nat) (outsize : Nat) :
    Prog F (List (Row F)) := do
  let out ← a2av cores (flat rows) sc sd rc rdp outsize
  Prog.lift (match unflat out with
    | some rs => ok rs
    | none => ub "misaligned rows")

/-- `if (totsize || other) { MPI_Barrier; all2allv }` (src/conviqt_math.cpp:1558-1565, 1623-1630): a
rank whose two sizes are zero skips both collectives. -/
def sendRecv (cores : Nat) (size other : Nat) (rows : List (Row F)) (sc rc : List Nat) (outsize : Nat) :
    Prog F (List (Row F)) :=
  if size ≠ 0 || other ≠ 0 then
    barrier >>= fun _ => a2avRows cores rows sc (segOffset cores sc) rc (segOffset cores rc) outsize
  else Prog.lift (ok [])

/-- Local convolution of the received rows: north/south count, sort by latitude, `todgen`, original
order, src/conviqt_math.cpp:1571-1619. -/
def middle (e : Env F) (cores me : Nat) (recv : List (Row F)) : Prog F (List (Row F)) := do
  let ntod := recv.length
  let ntod1 := (recv.filter (fun r => Arith.lt r.theta Arith.halfpi)).length
  let tagged := tagSig recv
  let sorted ← Prog.lift (if ntod ≠ 0 then hpsortTheta e.srt tagged else ok tagged)
  let order ← Prog.lift (sorted.mapM readTag)
  let out ← todgen e cores me ntod1 (ntod - ntod1) sorted
  Prog.lift (if ntod ≠ 0 then scatter out (order.zip out) else ok out)

/-- Calibration, src/conviqt_math.cpp:1654-1664. -/
def calibrated (e : Env F) (rows : List (Row F)) : List (Row F) :=
  if rows.length ≠ 0 && e.calibrate && !e.normalized then
    let cal : F := Arith.div (Arith.ofInt 2) (Arith.add (Arith.ofInt 1) e.eps)
    rows.map (fun r => { r with sig := Arith.mul r.sig cal })
  else rows

/-- What a rank knows when the pointing is about to be exchanged. -/
structure Shuffle (F : Type) where
  /-- `inBetaSeg` -/
  inSeg : List Nat
  /-- `outBetaSeg` -/
  outSeg : List Nat
  /-- `pntarr2` -/
  packed : List (Row F)
  /-- `orig_order` -/
  order : List Int

/-- First part of `convolver::convolve(pntarr, calibrate)`, src/conviqt_math.cpp:1479-1554: sample
numbers, range check, colatitude boundaries, segment sizes, packed send buffer. -/
def prepare (e : Env F) (cores : Nat) (rows0 : List (Row F)) : Prog F (Shuffle F) := do
  barrier
  let totsize := rows0.length
  let s ← scanSum totsize
  let rows1 := setTime (s - totsize) rows0
  Prog.lift (checkTheta rows1)
  let bounds ← distribute e.nbin cores rows1
  let inSeg ← Prog.lift (fillingBetaSeg cores bounds rows1)
  barrier
  let outSeg ← all2all inSeg
  let rows2 := tagSig rows1
  let packed ← Prog.lift (todRedistribution cores bounds inSeg rows2)
  let order ← Prog.lift (packed.mapM readTag)
  Prog.lift (ok ⟨inSeg, outSeg, packed, order⟩)

/-- Second part of `convolver::convolve`, src/conviqt_math.cpp:1556-1672: exchange, local
convolution, exchange back, original order, calibration, report. -/
def exchange (e : Env F) (cores me : Nat) (totsize : Nat) (sh : Shuffle F) : Prog F (List (Row F)) := do
  let outSize := segSize cores sh.outSeg
  let recv ← sendRecv cores totsize outSize sh.packed sh.inSeg sh.outSeg outSize
  let restored ← middle e cores me recv
  let back ← sendRecv cores totsize recv.length restored sh.outSeg sh.inSeg (5 * totsize)
  let final ← Prog.lift (if totsize ≠ 0 then scatter back (sh.order.zip back) else ok back)
  reportTiming (e.verb me)
  Prog.lift (ok (calibrated e final))

/-- `convolver::convolve(pntarr, calibrate)`, src/conviqt_math.cpp:1479-1672: program of rank `me`;
the result is the new content of `pntarr`. -/
def convolve (e : Env F) (cores me : Nat) (rows0 : List (Row F)) : Prog F (List (Row F)) :=
  prepare e cores rows0 >>= fun sh => exchange e cores me rows0.length sh

/-! ## Specification -/

/-- Value of one sample: only its own pointing, the ring data and the grid enter. -/
def sampleSpec (e : Env F) (phi theta psi : F) : Res F := do
  let south := !(Arith.lt theta Arith.halfpi)
  let th := foldGt theta
  let it0 ← betaToItheta e.cfg th
  sampleValue e.cfg (fun i => e.ring south i.toNat) ⟨phi, th, psi, Arith.ofInt 0, Arith.ofInt 0⟩ it0 e.cfg.npoints

/-- Calibration of one value. -/
def calibSpec (e : Env F) (v : F) : F :=
  if e.calibrate && !e.normalized then
    Arith.mul v (Arith.div (Arith.ofInt 2) (Arith.add (Arith.ofInt 1) e.eps))
  else v

/-- All ranks construct their convolver with the same classes of verbosity: silent or not, very verbose or not. -/
structure SameVerb (v : Nat → Int) : Prop where
  report : ∀ r s, 0 < v r ↔ 0 < v s
  chatter : ∀ r s, 5 < v r ↔ 5 < v s

theorem SameVerb.const (x : Int) : SameVerb (fun _ => x) := ⟨fun _ _ => Iff.rfl, fun _ _ => Iff.rfl⟩

/-- What is assumed about `std::sort`, ordinary comparisons and the ring index on the set `Ang` of
angles that occur (for IEEE: finite doubles; for exact arithmetic: all numbers). -/
structure Laws (e : Env F) (Ang : F → Prop) : Prop where
  verb : SameVerb e.verb
  halfpi : Ang Arith.halfpi
  fold : ∀ t, Ang t → Ang (foldGt t)
  fold_le : ∀ t, Ang t → Arith.lt Arith.halfpi (foldGt t) = false
  asymm : ∀ a b, Ang a → Ang b → Arith.lt a b = true → Arith.lt b a = false
  cotrans : ∀ a b c, Ang a → Ang b → Ang c → Arith.lt a b = true → Arith.lt a c = true ∨ Arith.lt c b = true
  /-- `std::sort` sorts when `<` is a strict weak order on the keys -/
  sort : ∀ l : List (F × Nat), (∀ p ∈ l, Ang p.1) →
    (e.srt l).Perm l ∧ (e.srt l).Pairwise (fun p q => Arith.lt q.1 p.1 = false)
  sched : ∀ l, (e.sched l).Perm l
  nan : ∃ v, e.nan = ok v
  ring_len : ∀ h i, (e.ring h i).length = e.cfg.bufsize
  /-- every rank computes the rings it owns, whatever they are -/
  kern : ∀ me mine, e.kern me mine = ok (mine.map (e.ring false), mine.map (e.ring true))
  itheta_ok : ∀ t, Ang t → ∃ i, betaToItheta e.cfg t = ok i
  /-- the ring index does not increase with the colatitude -/
  itheta_anti : ∀ a b, Ang a → Ang b → Arith.lt Arith.halfpi a = false → Arith.lt Arith.halfpi b = false →
    Arith.lt b a = false → ∀ i j, betaToItheta e.cfg a = ok i → betaToItheta e.cfg b = ok j → j ≤ i

/-! ## the log -/

theorem times_exec {n : Nat} (hn : 1 ≤ n) {p : Prog F Unit} (h : Exec n (fun _ => p) (fun _ => ())) :
    ∀ k, Exec n (fun _ => times p k) (fun _ => ())
  | 0 => Exec.local hn (fun _ _ => rfl)
  | k + 1 => Exec.seq h (times_exec hn h k)

theorem timingLine_exec {n : Nat} (hn : 1 ≤ n) : Exec n (fun _ => (timingLine : Prog F Unit)) (fun _ => ()) :=
  Exec.seq (reduceCall_exec hn _ _ _) <| Exec.seq (reduceCall_exec hn _ _ _) <| Exec.seq (reduceCall_exec hn _ _ _) <|
  Exec.seq (reduceCall_exec hn _ _ _) <| Exec.seq (reduceCall_exec hn _ _ _) <| Exec.seq (reduceCall_exec hn _ _ _) <|
  Exec.seq (reduceCall_exec hn _ _ _) (reduceCall_exec hn _ _ _)

theorem chatter_exec {n : Nat} (hn : 1 ≤ n) {v : Nat → Int} (h : SameVerb v) :
    Exec n (fun r => (chatter (v r) n : Prog F Unit)) (fun _ => ()) := by
  by_cases h0 : 5 < v 0
  · refine Exec.congr hn (fun r _ => ?_) (fun _ _ => rfl) (times_exec hn (barrier_exec hn) (n + 1))
    unfold chatter
    rw [if_pos ((h.chatter r 0).mpr h0)]
  · refine Exec.congr hn (P := fun _ => Prog.lift (ok ())) (v := fun _ => ()) (fun r _ => ?_) (fun _ _ => rfl)
      (Exec.local hn (fun _ _ => rfl))
    unfold chatter
    rw [if_neg (fun hr => h0 ((h.chatter r 0).mp hr))]

theorem reportTiming_exec {n : Nat} (hn : 1 ≤ n) {v : Nat → Int} (h : SameVerb v) :
    Exec n (fun r => (reportTiming (v r) : Prog F Unit)) (fun _ => ()) := by
  by_cases h0 : 0 < v 0
  · refine Exec.congr hn (fun r _ => ?_) (fun _ _ => rfl) (times_exec hn (timingLine_exec hn) 18)
    unfold reportTiming
    rw [if_pos ((h.report r 0).mpr h0)]
  · refine Exec.congr hn (P := fun _ => Prog.lift (ok ())) (v := fun _ => ()) (fun r _ => ?_) (fun _ _ => rfl)
      (Exec.local hn (fun _ _ => rfl))
    unfold reportTiming
    rw [if_neg (fun hr => h0 ((h.report r 0).mp hr))]

/-! ## sorting and untagging -/

@[simp] theorem tagSig_length (rows : List (Row F)) : (tagSig rows).length = rows.length := by
  simp [tagSig]

@[simp] theorem setTime_length (off : Int) (rows : List (Row F)) : (setTime off rows).length = rows.length := by
  simp [setTime]

theorem tagSig_map {β : Type} (g : Row F → β) (hg : ∀ r s, g { r with sig := s } = g r) (rows : List (Row F)) :
    (tagSig rows).map g = rows.map g := by
  unfold tagSig
  apply List.ext_getElem (by simp)
  intro i h1 h2
  simp [hg]

theorem setTime_map {β : Type} (g : Row F → β) (hg : ∀ r s, g { r with time := s } = g r) (off : Int)
    (rows : List (Row F)) : (setTime off rows).map g = rows.map g := by
  unfold setTime
  apply List.ext_getElem (by simp)
  intro i h1 h2
  simp [hg]

/-- The tag law: reading back a row number written to the signal column. -/
def TagLaw (F : Type) [Arith F] (N : Nat) : Prop :=
  ∀ i : Nat, i < N → Arith.trunc (Arith.add (Arith.ofInt i : F) Arith.half) = some (i : Int)

theorem readTag_ofInt {N : Nat} (h : TagLaw F N) {i : Nat} (hi : i < N) {r : Row F}
    (hr : r.sig = Arith.ofInt i) : readTag r = ok (i : Int) := by
  unfold readTag toInt
  rw [hr, h i hi]

theorem hpsortTheta_ok {srt : List (F × Nat) → List (F × Nat)} (rows : List (Row F))
    (hp : (srt (rows.zipIdx.map (fun p => (p.1.theta, p.2)))).Perm (rows.zipIdx.map (fun p => (p.1.theta, p.2))))
    (hs : (srt (rows.zipIdx.map (fun p => (p.1.theta, p.2)))).Pairwise (fun p q => Arith.lt q.1 p.1 = false)) :
    ∃ ys, hpsortTheta srt rows = ok ys ∧ ys.Perm rows ∧
      ys.Pairwise (fun p q => Arith.lt q.theta p.theta = false) := by
  set P := srt (rows.zipIdx.map (fun p => (p.1.theta, p.2))) with hP
  have hmem : ∀ p ∈ P, ∃ r, rows[p.2]? = some r ∧ r.theta = p.1 := by
    intro p hpP
    have := hp.mem_iff.mp hpP
    obtain ⟨q, hq, rfl⟩ := List.mem_map.mp this
    obtain ⟨a, b⟩ := q
    exact ⟨a, List.mem_zipIdx_iff_getElem?.mp hq, rfl⟩
  classical
  let dflt : Row F := ⟨Arith.ofInt 0, Arith.ofInt 0, Arith.ofInt 0, Arith.ofInt 0, Arith.ofInt 0⟩
  let g : F × Nat → Row F := fun p => (rows[p.2]?).getD dflt
  have hg : ∀ p ∈ P, (g p).theta = p.1 := by
    intro p hp'
    obtain ⟨r, h1, h2⟩ := hmem p hp'
    simp only [g, h1, Option.getD_some, h2]
  refine ⟨P.map g, ?_, ?_, ?_⟩
  · unfold hpsortTheta
    rw [← hP]
    apply mapM_ok
    intro p hp'
    obtain ⟨r, h1, h2⟩ := hmem p hp'
    obtain ⟨hlt, he⟩ := List.getElem?_eq_some_iff.mp h1
    rw [rd_nat hlt]
    simp only [ok_bind, g, h1, Option.getD_some]
    rw [he]
    congr 1
    rw [← h2]
  · have h1 := hp.map g
    refine h1.trans ?_
    rw [List.map_map]
    have : rows.zipIdx.map (g ∘ fun p => (p.1.theta, p.2)) = rows := by
      apply List.ext_getElem (by simp)
      intro i h1 h2
      simp [g, h2]
    rw [this]
  · rw [List.pairwise_map]
    refine hs.imp_of_mem ?_
    intro a b ha hb hab
    rw [hg a ha, hg b hb]
    exact hab

/-- Scatter by tag undoes a permutation. -/
theorem untag {β γ : Type} (xs ys : List β) (hp : ys.Perm xs) (tag : β → Int) (g : β → γ)
    (ht : ∀ i (h : i < xs.length), tag xs[i] = i) (buf : List γ) (hb : buf.length = xs.length) :
    scatter buf (ys.map (fun y => (tag y, g y))) = ok (xs.map g) := by
  have hrange : xs.map tag = (List.range xs.length).map (fun i : Nat => (i : Int)) := by
    apply List.ext_getElem (by simp)
    intro i h1 h2
    simp only [List.getElem_map, List.getElem_range]
    exact ht i (by simpa using h1)
  have hnd : (ys.map tag).Nodup := by
    rw [(hp.map tag).nodup_iff, hrange]
    exact List.nodup_range.map (fun a b h => by simpa using h)
  obtain ⟨out, h1, h2, h3, _⟩ := scatter_spec (ys.map (fun y => (tag y, g y))) buf
    (by rw [List.map_map]; exact hnd)
    (by
      intro p hp'
      obtain ⟨y, hy, rfl⟩ := List.mem_map.mp hp'
      have hyx := hp.mem_iff.mp hy
      obtain ⟨i, hi, rfl⟩ := List.getElem_of_mem hyx
      simp only [ht i hi]
      simp; omega)
  rw [h1]
  congr 1
  apply List.ext_getElem?
  intro i
  by_cases hi : i < xs.length
  · have := h3 (tag xs[i], g xs[i]) (List.mem_map.mpr ⟨xs[i], hp.mem_iff.mpr (List.getElem_mem hi), rfl⟩)
    rw [ht i hi] at this
    simp only [Int.toNat_natCast] at this
    rw [this]
    simp [hi]
  · rw [List.getElem?_eq_none (by omega), List.getElem?_eq_none (by simp; omega)]

theorem scatterSig_spec {tag : Row F → Nat} (ps : List (Row F × F)) :
    ∀ (rows : List (Row F)), (∀ p ∈ ps, readTag p.1 = ok (tag p.1 : Int) ∧ tag p.1 < rows.length) →
      (ps.map (fun p => tag p.1)).Nodup →
      ∃ out, scatterSig rows ps = ok out ∧ out.length = rows.length ∧
        (∀ p ∈ ps, ∀ r, rows[tag p.1]? = some r → out[tag p.1]? = some { r with sig := p.2 }) ∧
        (∀ i, i ∉ ps.map (fun p => tag p.1) → out[i]? = rows[i]?) := by
  induction ps with
  | nil => intro rows _ _; exact ⟨rows, rfl, rfl, by simp, by simp⟩
  | cons p ps ih =>
    intro rows hp hnd
    obtain ⟨h1, h2⟩ := hp p (by simp)
    rw [List.map_cons, List.nodup_cons] at hnd
    obtain ⟨out, o1, o2, o3, o4⟩ := ih (rows.set (tag p.1) { rows[tag p.1] with sig := p.2 })
      (fun q hq => by have := hp q (by simp [hq]); simpa using this) hnd.2
    refine ⟨out, ?_, by simpa using o2, ?_, ?_⟩
    · unfold scatterSig at o1 ⊢
      rw [foldRes_cons, h1]
      simp only [ok_bind]
      rw [rd_nat h2]
      simp only [ok_bind]
      rw [wr_nat _ h2]
      exact o1
    · intro q hq r hr
      rcases List.mem_cons.mp hq with rfl | hq
      · rw [o4 _ hnd.1]
        obtain ⟨_, he⟩ := List.getElem?_eq_some_iff.mp hr
        rw [List.getElem?_set_self h2, he]
      · have hne : tag p.1 ≠ tag q.1 := by
          intro h; apply hnd.1; rw [h]; exact List.mem_map.mpr ⟨q, hq, rfl⟩
        exact o3 q hq r (by rw [List.getElem?_set_ne hne]; exact hr)
    · intro i hi
      rw [List.map_cons, List.mem_cons, not_or] at hi
      rw [o4 i hi.2, List.getElem?_set_ne (fun h => hi.1 h.symm)]

end Verif.Tod
