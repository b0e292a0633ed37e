import Verif.Tod.Arith
import Mathlib.Tactic.Ring
import Mathlib.Tactic.Linarith
import Mathlib.Algebra.BigOperators.Group.List.Basic

/-!
# Distribution of samples over ranks

Model of `distribute_colatitudes`, `fillingBetaSeg`, `ratiobetacalcgreatercm`,
`ratiobetacalcsmallercm` and `todRedistribution5cm` (src/conviqt_math.cpp:268-478).
Buffers of `5*n` doubles are seen as lists of `n` rows; counts and offsets are kept in
doubles as in the code (multiples of five), a misaligned access would be `ub`.
`int` counts are unbounded here (see C45 for overflow).
-/

namespace Verif.Tod
open Verif Res

variable {F : Type} [Arith F]

/-- `if (theta >= halfpi) theta = pi - theta;` src/conviqt_math.cpp:350-352, 458-460 -/
def foldGe (t : F) : F := if Arith.le Arith.halfpi t then Arith.sub Arith.pi t else t

/-- `if (beta > halfpi) beta = pi - beta;` src/conviqt_math.cpp:290-292, 594-596, 1461-1463 -/
def foldGt (t : F) : F := if Arith.lt Arith.halfpi t then Arith.sub Arith.pi t else t

/-- `ratiobetacalcgreatercm`, src/conviqt_math.cpp:377-385.  The first argument is
`cores-1-corenum`, the number of iterations left before the loop condition fails. -/
def searchUp (bounds : List F) (theta : F) : Nat → Nat → Res Nat
  | 0, c => ok c
  | k + 1, c => do
    let b ← rd bounds ((c + 1 : Nat) : Int)
    if Arith.lt theta b then ok c else searchUp bounds theta k (c + 1)

/-- `ratiobetacalcsmallercm`, src/conviqt_math.cpp:388-396. -/
def searchDown (bounds : List F) (theta : F) : Nat → Res Nat
  | 0 => ok 0
  | c + 1 => do
    let b ← rd bounds ((c + 1 : Nat) : Int)
    if Arith.lt b theta then ok (c + 1) else searchDown bounds theta c

/-- Owner search of one sample, src/conviqt_math.cpp:349-365 (and :458-466): fold, then linear
search from the previous owner. -/
def ownerStep (cores : Nat) (bounds : List F) (corenum : Nat) (theta0 : F) : Res Nat := do
  let theta := foldGe theta0
  let b ← rd bounds (corenum : Int)
  if Arith.le b theta then searchUp bounds theta (cores - 1 - corenum) corenum
  else searchDown bounds theta corenum

/-- Body of the loop of `fillingBetaSeg`, src/conviqt_math.cpp:348-367. -/
def fillStep (cores : Nat) (bounds : List F) (s : Nat × List Nat) (row : Row F) :
    Res (Nat × List Nat) := do
  let c ← ownerStep cores bounds s.1 row.theta
  let x ← rd s.2 (c : Int)
  let seg ← wr s.2 (c : Int) (x + 5)
  ok (c, seg)

/-- `fillingBetaSeg`, src/conviqt_math.cpp:328-374: number of doubles for every destination. -/
def fillingBetaSeg (cores : Nat) (bounds : List F) (rows : List (Row F)) : Res (List Nat) := do
  let s ← foldRes (fillStep cores bounds) (0, List.replicate cores 0) rows
  ok s.2

/-- The double loop src/conviqt_math.cpp:423-428 (inclusive prefix sums). -/
def segAcc (cores : Nat) (seg : List Nat) : List Nat :=
  (List.range cores).map (fun ii => (seg.take (ii + 1)).sum)

/-- The offsets, src/conviqt_math.cpp:430-437: `off[0] = 0`, `off[ii] = acc[ii-1]`. -/
def segOffset (cores : Nat) (seg : List Nat) : List Nat :=
  (List.range cores).map (fun ii => if ii = 0 then 0 else (segAcc cores seg).getD (ii - 1) 0)

/-- `outBetaSegSize = outBetaSegAcc[cores - 1]`, src/conviqt_math.cpp:429. -/
def segSize (cores : Nat) (seg : List Nat) : Nat := (segAcc cores seg).getD (cores - 1) 0

/-- memcpy of one row to double offset `off`, src/conviqt_math.cpp:467. -/
def putRow (buf : List (Row F)) (off : Nat) (row : Row F) : Res (List (Row F)) :=
  if off % 5 = 0 then wr buf ((off / 5 : Nat) : Int) row else ub "misaligned row"

/-- Body of the packing loop, src/conviqt_math.cpp:452-470. -/
def packStep (cores : Nat) (bounds : List F) (s : Nat × List Nat × List (Row F)) (row : Row F) :
    Res (Nat × List Nat × List (Row F)) :=
  if Arith.lt row.theta (Arith.ofInt 0) || Arith.lt Arith.pi row.theta then
    throw "ERROR: Illegal latitude in pntarr"
  else do
    let c ← ownerStep cores bounds s.1 row.theta
    let off ← rd s.2.1 (c : Int)
    let buf ← putRow s.2.2 off row
    let off2 ← wr s.2.1 (c : Int) (off + 5)
    ok (c, off2, buf)

/-- `todRedistribution5cm`, src/conviqt_math.cpp:398-478: the packed send buffer (zero-filled,
then one row per sample).  For `totsize = 0` the buffer stays unallocated (empty). -/
def todRedistribution (cores : Nat) (bounds : List F) (inSeg : List Nat) (rows : List (Row F)) :
    Res (List (Row F)) :=
  if rows.length > 0 then do
    let z : F := Arith.ofInt 0
    let s ← foldRes (packStep cores bounds)
      (0, segOffset cores inSeg, List.replicate rows.length ⟨z, z, z, z, z⟩) rows
    ok s.2.2
  else ok []

/-! ### distribute_colatitudes -/

/-- Bin width `wbin = halfpi / nbin`, src/conviqt_math.cpp:286. -/
def wbin (nbin : Nat) : F := Arith.div Arith.halfpi (Arith.ofInt nbin)

/-- Histogram loop, src/conviqt_math.cpp:288-295. -/
def histStep (nbin : Nat) (hits : List Int) (row : Row F) : Res (List Int) := do
  let ibin ← toInt (Arith.div (foldGt row.theta) (wbin nbin))
  let h ← rd hits ibin
  wr hits ibin (h + 1)

/-- Local part of the histogram, src/conviqt_math.cpp:287-295. -/
def localHits (nbin : Nat) (rows : List (Row F)) : Res (List Int) :=
  foldRes (histStep nbin) (List.replicate nbin 0) rows

/-- Inner `while (ibin < nbin)` loop, src/conviqt_math.cpp:309-319; the first argument is the
number of iterations left (`nbin - ibin`).  Returns the new `ibin` and `nhitleft`. -/
def findBin (hits : List Int) (target : F) : Nat → Int → Int → Int → Res (Int × Int)
  | 0, ibin, _, nhitleft => ok (ibin, nhitleft)
  | k + 1, ibin, binHit, nhitleft => do
    let ibin := ibin + 1
    let h ← rd hits ibin
    if h ≠ 0 then
      let binHit := binHit + h
      let nhitleft := nhitleft - h
      if Arith.le target (Arith.ofInt binHit) then ok (ibin, nhitleft)
      else findBin hits target k ibin binHit nhitleft
    else findBin hits target k ibin binHit nhitleft

/-- Outer loop over `corenum = 1 … cores-1`, src/conviqt_math.cpp:301-322: state
`(ibin, nhitleft, corethetaarr so far)`. -/
def boundStep (nbin cores : Nat) (hits : List Int) (i : Nat) (s : Int × Int × List F) :
    Res (Int × Int × List F) := do
  let corenum : Int := i + 1
  let divisor : F := Arith.ofInt (cores - corenum + 1)
  let target := Arith.div (Arith.ofInt s.2.1) divisor
  let (ibin, left) ← findBin hits target ((nbin : Int) - s.1).toNat s.1 0 s.2.1
  ok (ibin, left, s.2.2 ++ [Arith.mul (Arith.ofInt ibin) (wbin nbin)])

/-- Boundary table from the reduced histogram, src/conviqt_math.cpp:299-322. -/
def boundTable (nbin cores : Nat) (hits : List Int) (total : Int) : Res (List F) := do
  let s ← forN (cores - 1) (boundStep nbin cores hits) (-1, total, [Arith.ofInt 0])
  ok s.2.2

/-! ## Owner sequence -/

theorem searchUp_ok (bounds : List F) (theta : F) : ∀ k c, c + k < bounds.length →
    ∃ c', searchUp bounds theta k c = ok c' ∧ c ≤ c' ∧ c' ≤ c + k := by
  intro k
  induction k with
  | zero => intro c _; exact ⟨c, rfl, le_rfl, le_rfl⟩
  | succ k ih =>
    intro c h
    unfold searchUp
    rw [rd_nat (show c + 1 < bounds.length by omega)]
    simp only [ok_bind]
    split
    · exact ⟨c, rfl, le_rfl, by omega⟩
    · obtain ⟨c', h1, h2, h3⟩ := ih (c + 1) (by omega)
      exact ⟨c', h1, by omega, by omega⟩

theorem searchDown_ok (bounds : List F) (theta : F) : ∀ c, c < bounds.length →
    ∃ c', searchDown bounds theta c = ok c' ∧ c' ≤ c := by
  intro c
  induction c with
  | zero => intro _; exact ⟨0, rfl, le_rfl⟩
  | succ c ih =>
    intro h
    unfold searchDown
    rw [rd_nat h]
    simp only [ok_bind]
    split
    · exact ⟨c + 1, rfl, le_rfl⟩
    · obtain ⟨c', h1, h2⟩ := ih (by omega)
      exact ⟨c', h1, by omega⟩

theorem ownerStep_ok {cores : Nat} {bounds : List F} (hb : bounds.length = cores) {c : Nat}
    (hc : c < cores) (t : F) : ∃ c', ownerStep cores bounds c t = ok c' ∧ c' < cores := by
  unfold ownerStep
  rw [rd_nat (show c < bounds.length by omega)]
  simp only [ok_bind]
  split
  · obtain ⟨c', h1, h2, h3⟩ := searchUp_ok bounds (foldGe t) (cores - 1 - c) c (by omega)
    exact ⟨c', h1, by omega⟩
  · obtain ⟨c', h1, h2⟩ := searchDown_ok bounds (foldGe t) c (by omega)
    exact ⟨c', h1, by omega⟩

/-- total version of the owner search -/
def own (cores : Nat) (bounds : List F) (c : Nat) (t : F) : Nat :=
  match ownerStep cores bounds c t with
  | ok c' => c'
  | _ => 0

theorem ownerStep_eq {cores : Nat} {bounds : List F} (hb : bounds.length = cores) {c : Nat}
    (hc : c < cores) (t : F) : ownerStep cores bounds c t = ok (own cores bounds c t) := by
  obtain ⟨c', h, _⟩ := ownerStep_ok hb hc t
  unfold own; rw [h]

theorem own_lt {cores : Nat} {bounds : List F} (hb : bounds.length = cores) {c : Nat}
    (hc : c < cores) (t : F) : own cores bounds c t < cores := by
  obtain ⟨c', h, h2⟩ := ownerStep_ok hb hc t
  unfold own; rw [h]; exact h2

/-- Sequence of owners chosen by the (history dependent) search. -/
def owners (cores : Nat) (bounds : List F) : Nat → List F → List Nat
  | _, [] => []
  | c, t :: ts => own cores bounds c t :: owners cores bounds (own cores bounds c t) ts

@[simp] theorem owners_length (cores : Nat) (bounds : List F) (ts : List F) :
    ∀ c, (owners cores bounds c ts).length = ts.length := by
  induction ts with
  | nil => intro c; rfl
  | cons t ts ih => intro c; simp [owners, ih]

theorem owners_lt {cores : Nat} {bounds : List F} (hb : bounds.length = cores) (ts : List F) :
    ∀ c < cores, ∀ o ∈ owners cores bounds c ts, o < cores := by
  induction ts with
  | nil => intro c _ o ho; simp [owners] at ho
  | cons t ts ih =>
    intro c hc o ho
    rcases List.mem_cons.mp ho with rfl | ho
    · exact own_lt hb hc t
    · exact ih _ (own_lt hb hc t) o ho

/-- Rows sent to rank `d`, in order. -/
def bucket (cores : Nat) (bounds : List F) (c : Nat) (rows : List (Row F)) (d : Nat) : List (Row F) :=
  ((rows.zip (owners cores bounds c (rows.map Row.theta))).filter (fun p => p.2 == d)).map Prod.fst

theorem bucket_nil (cores : Nat) (bounds : List F) (c d : Nat) : bucket cores bounds c [] d = [] := rfl

theorem bucket_cons (cores : Nat) (bounds : List F) (c : Nat) (r : Row F) (rows : List (Row F)) (d : Nat) :
    bucket cores bounds c (r :: rows) d =
      if own cores bounds c r.theta = d then r :: bucket cores bounds (own cores bounds c r.theta) rows d
      else bucket cores bounds (own cores bounds c r.theta) rows d := by
  unfold bucket
  simp only [List.map_cons, owners, List.zip_cons_cons, List.filter_cons]
  by_cases h : own cores bounds c r.theta = d
  · simp [h]
  · have : (own cores bounds c r.theta == d) = false := by simpa using h
    simp [this, h]

theorem bucket_mem {cores : Nat} {bounds : List F} {c : Nat} {rows : List (Row F)} {d : Nat} {r : Row F}
    (h : r ∈ bucket cores bounds c rows d) : r ∈ rows := by
  unfold bucket at h
  obtain ⟨p, hp, rfl⟩ := List.mem_map.mp h
  exact (List.of_mem_zip (List.mem_filter.mp hp).1).1

/-! ## fillingBetaSeg -/

theorem fill_spec {cores : Nat} {bounds : List F} (hb : bounds.length = cores)
    (rows : List (Row F)) : ∀ (c : Nat) (seg : Nat → Nat), c < cores →
    ∃ c', foldRes (fillStep cores bounds) (c, (List.range cores).map seg) rows =
      ok (c', (List.range cores).map (fun d => seg d + 5 * (bucket cores bounds c rows d).length)) := by
  induction rows with
  | nil => intro c seg _; exact ⟨c, by simp [bucket_nil]⟩
  | cons r rows ih =>
    intro c seg hc
    rw [foldRes_cons]
    have ho := own_lt hb hc r.theta
    set o := own cores bounds c r.theta with ho_def
    have hstep : fillStep cores bounds (c, (List.range cores).map seg) r =
        ok (o, (List.range cores).map (fun d => if d = o then seg d + 5 else seg d)) := by
      unfold fillStep
      simp only
      rw [ownerStep_eq hb hc, ← ho_def]
      simp only [ok_bind]
      rw [rd_nat (by simpa using ho)]
      simp only [ok_bind]
      rw [wr_nat _ (by simpa using ho)]
      simp only [ok_bind, List.getElem_map, List.getElem_range]
      congr 2
      apply List.ext_getElem (by simp)
      intro i h1 h2
      simp only [List.getElem_set, List.getElem_map, List.getElem_range]
      by_cases e : o = i
      · subst e; simp
      · rw [if_neg e, if_neg (fun h => e h.symm)]
    rw [hstep]
    obtain ⟨c', h⟩ := ih o (fun d => if d = o then seg d + 5 else seg d) ho
    refine ⟨c', ?_⟩
    simp only [Res.bind]
    rw [h]
    congr 2
    apply List.map_congr_left
    intro d _
    rw [bucket_cons, ← ho_def]
    by_cases e : o = d
    · subst e; simp; omega
    · rw [if_neg e, if_neg (fun h => e h.symm)]

theorem fillingBetaSeg_eq {cores : Nat} {bounds : List F} (hb : bounds.length = cores) (hc : 0 < cores)
    (rows : List (Row F)) :
    fillingBetaSeg cores bounds rows =
      ok ((List.range cores).map (fun d => 5 * (bucket cores bounds 0 rows d).length)) := by
  obtain ⟨c', h⟩ := fill_spec hb rows 0 (fun _ => 0) hc
  unfold fillingBetaSeg
  have e : List.replicate cores 0 = (List.range cores).map (fun _ => 0) := by
    rw [List.map_const', List.length_range]
  rw [e, h]
  simp

/-! ## offsets -/

theorem segAcc_getD {cores : Nat} (seg : List Nat) {i : Nat} (hi : i < cores) :
    (segAcc cores seg).getD i 0 = (seg.take (i + 1)).sum := by
  unfold segAcc
  simp [List.getD_eq_getElem?_getD, hi]

theorem segOffset_eq {cores : Nat} (seg : List Nat) :
    segOffset cores seg = (List.range cores).map (fun i => (seg.take i).sum) := by
  unfold segOffset
  apply List.map_congr_left
  intro i hi
  rw [List.mem_range] at hi
  by_cases h : i = 0
  · simp [h]
  · rw [if_neg h, segAcc_getD seg (by omega), show i - 1 + 1 = i by omega]

theorem segSize_eq {cores : Nat} (hc : 0 < cores) (seg : List Nat) (hl : seg.length = cores) :
    segSize cores seg = seg.sum := by
  unfold segSize
  rw [segAcc_getD seg (by omega), show cores - 1 + 1 = cores by omega, ← hl, List.take_length]

/-! ## packing -/

theorem pack_spec {cores : Nat} {bounds : List F} (hb : bounds.length = cores)
    (rows : List (Row F))
    (hok : ∀ r ∈ rows, Arith.lt r.theta (Arith.ofInt 0) = false ∧ Arith.lt Arith.pi r.theta = false) :
    ∀ (c : Nat) (o : Nat → Nat) (buf : List (Row F)), c < cores →
    (∀ d < cores, o d + (bucket cores bounds c rows d).length ≤ buf.length) →
    (∀ d < cores, ∀ d' < cores, d ≠ d' → ∀ j < (bucket cores bounds c rows d).length,
      ∀ j' < (bucket cores bounds c rows d').length, o d + j ≠ o d' + j') →
    ∃ c' off' out, foldRes (packStep cores bounds) (c, (List.range cores).map (fun d => 5 * o d), buf) rows =
        ok (c', off', out) ∧ out.length = buf.length ∧
      (∀ d < cores, ∀ j < (bucket cores bounds c rows d).length,
        out[o d + j]? = (bucket cores bounds c rows d)[j]?) ∧
      (∀ i, (∀ d < cores, ∀ j < (bucket cores bounds c rows d).length, i ≠ o d + j) → out[i]? = buf[i]?) := by
  induction rows with
  | nil =>
    intro c o buf _ _ _
    exact ⟨c, _, buf, rfl, rfl, by simp [bucket_nil], by simp⟩
  | cons r rows ih =>
    intro c o buf hc hbound hdisj
    rw [foldRes_cons]
    have ho := own_lt hb hc r.theta
    set w := own cores bounds c r.theta with hw
    have hbk : ∀ d, bucket cores bounds c (r :: rows) d =
        if w = d then r :: bucket cores bounds w rows d else bucket cores bounds w rows d := by
      intro d; rw [bucket_cons, ← hw]
    have hbw : bucket cores bounds c (r :: rows) w = r :: bucket cores bounds w rows w := by
      rw [hbk, if_pos rfl]
    have hroom : o w < buf.length := by
      have := hbound w ho; rw [hbw] at this; simp at this; omega
    have hstep : packStep cores bounds (c, (List.range cores).map (fun d => 5 * o d), buf) r =
        ok (w, (List.range cores).map (fun d => 5 * (if d = w then o d + 1 else o d)), buf.set (o w) r) := by
      unfold packStep
      rw [if_neg (by have := hok r (by simp); simp [this])]
      simp only
      rw [ownerStep_eq hb hc, ← hw]
      simp only [ok_bind]
      rw [rd_nat (by simpa using ho)]
      simp only [ok_bind, List.getElem_map, List.getElem_range]
      unfold putRow
      rw [if_pos (by omega), Nat.mul_div_cancel_left _ (by norm_num), wr_nat _ hroom]
      simp only [ok_bind]
      rw [wr_nat _ (by simpa using ho)]
      simp only [ok_bind]
      congr 3
      apply List.ext_getElem (by simp)
      intro i h1 h2
      simp only [List.getElem_set, List.getElem_map, List.getElem_range]
      by_cases e : w = i
      · subst e; simp; omega
      · rw [if_neg e, if_neg (fun h => e h.symm)]
    rw [hstep]
    obtain ⟨c', off', out, h1, h2, h3, h4⟩ := ih (fun x hx => hok x (by simp [hx])) w
      (fun d => if d = w then o d + 1 else o d) (buf.set (o w) r) ho
      (by
        intro d hd
        have := hbound d hd
        rw [hbk] at this
        by_cases e : w = d
        · subst e; simp at this ⊢; omega
        · rw [if_neg e] at this; rw [if_neg (fun h => e h.symm)]; simpa using this)
      (by
        intro d hd d' hd' hne j hj j' hj'
        have := hdisj d hd d' hd' hne
        rw [hbk d, hbk d'] at this
        by_cases e : w = d
        · subst e
          have hne' : ¬ w = d' := hne
          rw [if_pos rfl, if_neg hne'] at this
          have h' := this (j + 1) (by simp; omega) j' hj'
          rw [if_pos rfl, if_neg (fun h => hne' h.symm)]
          omega
        · by_cases e' : w = d'
          · subst e'
            rw [if_neg e, if_pos rfl] at this
            have h' := this j hj (j' + 1) (by simp; omega)
            rw [if_pos rfl, if_neg (fun h => e h.symm)]
            omega
          · rw [if_neg e, if_neg e'] at this
            rw [if_neg (fun h => e h.symm), if_neg (fun h => e' h.symm)]
            exact this j hj j' hj')
    refine ⟨c', off', out, h1, by simpa using h2, ?_, ?_⟩
    · intro d hd j hj
      rw [hbk] at hj ⊢
      by_cases e : w = d
      · subst e
        rw [if_pos rfl] at hj ⊢
        cases j with
        | zero =>
          rw [h4 (o w + 0)]
          · simp [hroom]
          · intro d' hd' j' hj'
            by_cases e' : d' = w
            · subst e'; rw [if_pos rfl]; omega
            · rw [if_neg e']
              have := hdisj w hd d' hd' (fun h => e' h.symm) 0 (by rw [hbw]; simp) j'
                (by rw [hbk, if_neg (fun h => e' h.symm)]; exact hj')
              omega
        | succ j =>
          have := h3 w hd j (by simpa using hj)
          rw [if_pos rfl] at this
          rw [show o w + (j + 1) = o w + 1 + j by omega, this]
          simp
      · rw [if_neg e] at hj ⊢
        have := h3 d hd j hj
        rwa [if_neg (fun h => e h.symm)] at this
    · intro i hi
      rw [h4 i]
      · rw [List.getElem?_set_ne]
        have := hi w ho 0 (by rw [hbw]; simp)
        omega
      · intro d hd j hj
        by_cases e : d = w
        · rw [e] at hj ⊢
          rw [if_pos rfl]
          have := hi w ho (j + 1) (by rw [hbw]; simp; omega)
          omega
        · rw [if_neg e]
          exact hi d hd j (by rw [hbk, if_neg (fun h => e h.symm)]; exact hj)

/-- A list is determined by its segments. -/
theorem eq_flatten_of_segments {β : Type} : ∀ (segs : List (List β)) (X : List β),
    X.length = segs.flatten.length →
    (∀ d (hd : d < segs.length), ∀ j < (segs[d]).length,
      X[((segs.take d).map List.length).sum + j]? = (segs[d])[j]?) → X = segs.flatten := by
  intro segs
  induction segs with
  | nil => intro X h _; simpa using h
  | cons s segs ih =>
    intro X hlen h
    have hlen' : X.length = s.length + segs.flatten.length := by simpa using hlen
    rw [List.flatten_cons]
    have h1 : X.take s.length = s := by
      apply List.ext_getElem?
      intro i
      by_cases hi : i < s.length
      · rw [List.getElem?_take_of_lt hi]
        have := h 0 (by simp) i (by simpa using hi)
        simpa using this
      · rw [List.getElem?_eq_none (by rw [List.length_take]; omega), List.getElem?_eq_none (by omega)]
    have h2 : X.drop s.length = segs.flatten := by
      apply ih
      · rw [List.length_drop]; omega
      · intro d hd j hj
        rw [List.getElem?_drop]
        have := h (d + 1) (by simp; omega) j (by simpa using hj)
        simp only [List.take_succ_cons, List.map_cons, List.sum_cons, List.getElem_cons_succ] at this
        rw [← this, Nat.add_assoc]
    have h3 := List.take_append_drop s.length X
    rw [h1, h2] at h3
    exact h3.symm

theorem sum_bucket_length {cores : Nat} {bounds : List F} (hb : bounds.length = cores)
    (rows : List (Row F)) : ∀ c < cores,
    ((List.range cores).map (fun d => (bucket cores bounds c rows d).length)).sum = rows.length := by
  induction rows with
  | nil => intro c _; simp [bucket_nil]
  | cons r rows ih =>
    intro c hc
    have ho := own_lt hb hc r.theta
    set w := own cores bounds c r.theta with hw
    have h1 := ih w ho
    have e : ∀ d, (bucket cores bounds c (r :: rows) d).length =
        (bucket cores bounds w rows d).length + (if w = d then 1 else 0) := by
      intro d; rw [bucket_cons, ← hw]; split <;> simp
    simp only [e]
    rw [List.sum_map_add, h1]
    have : ((List.range cores).map (fun d => if w = d then 1 else 0)).sum = 1 := by
      clear h1 e ih hw
      clear_value w
      induction cores with
      | zero => omega
      | succ n ihn =>
        rw [List.range_succ, List.map_append, List.sum_append]
        by_cases hwn : w = n
        · subst hwn
          have : ((List.range w).map (fun d => if w = d then 1 else 0)) = (List.range w).map (fun _ => 0) := by
            apply List.map_congr_left
            intro d hd; rw [List.mem_range] at hd; rw [if_neg (by omega)]
          rw [this]; simp
        · rw [ihn' n w (by omega)]
          simp [hwn]
    rw [this]
    rfl
where
  ihn' (n w : Nat) (h : w < n) : ((List.range n).map (fun d => if w = d then 1 else 0)).sum = 1 := by
    induction n with
    | zero => omega
    | succ n ih =>
      rw [List.range_succ, List.map_append, List.sum_append]
      by_cases hwn : w = n
      · subst hwn
        have : ((List.range w).map (fun d => if w = d then 1 else 0)) = (List.range w).map (fun _ => 0) := by
          apply List.map_congr_left
          intro d hd; rw [List.mem_range] at hd; rw [if_neg (by omega)]
        rw [this]; simp
      · rw [ih (by omega)]
        simp [hwn]

/-- buckets of all destinations -/
def buckets (cores : Nat) (bounds : List F) (rows : List (Row F)) : List (List (Row F)) :=
  (List.range cores).map (bucket cores bounds 0 rows)

theorem buckets_flatten_length {cores : Nat} {bounds : List F} (hb : bounds.length = cores) (hc : 0 < cores)
    (rows : List (Row F)) : (buckets cores bounds rows).flatten.length = rows.length := by
  rw [List.length_flatten]
  unfold buckets
  rw [List.map_map]
  exact sum_bucket_length hb rows 0 hc

theorem take_map_length (cores : Nat) (bounds : List F) (rows : List (Row F)) (d : Nat) :
    ((List.take d (buckets cores bounds rows)).map List.length).sum * 5 =
      (((List.range cores).map (fun d => 5 * (bucket cores bounds 0 rows d).length)).take d).sum := by
  unfold buckets
  rw [← List.map_take, ← List.map_take, List.map_map]
  generalize List.take d (List.range cores) = l
  induction l with
  | nil => rfl
  | cons x l ih =>
    simp only [List.map_cons, List.sum_cons, Function.comp] at *
    rw [← ih]; ring

/-- The packed send buffer is the concatenation of the buckets. -/
theorem todRedistribution_eq {cores : Nat} {bounds : List F} (hb : bounds.length = cores) (hc : 0 < cores)
    (rows : List (Row F))
    (hok : ∀ r ∈ rows, Arith.lt r.theta (Arith.ofInt 0) = false ∧ Arith.lt Arith.pi r.theta = false) :
    todRedistribution cores bounds
      ((List.range cores).map (fun d => 5 * (bucket cores bounds 0 rows d).length)) rows =
      ok (buckets cores bounds rows).flatten := by
  unfold todRedistribution
  by_cases hlen : rows.length > 0
  · rw [if_pos hlen]
    simp only
    set o : Nat → Nat := fun d => ((List.take d (buckets cores bounds rows)).map List.length).sum with ho
    have hoff : segOffset cores ((List.range cores).map (fun d => 5 * (bucket cores bounds 0 rows d).length))
        = (List.range cores).map (fun d => 5 * o d) := by
      rw [segOffset_eq]
      apply List.map_congr_left
      intro d _
      rw [← take_map_length, ho]; ring
    have hsegs : ∀ d (h : d < (buckets cores bounds rows).length),
        (buckets cores bounds rows)[d] = bucket cores bounds 0 rows d := by
      intro d h; simp [buckets]
    have hblen : (buckets cores bounds rows).length = cores := by unfold buckets; simp
    have e1 : ∀ d < cores, o (d + 1) = o d + (bucket cores bounds 0 rows d).length := by
      intro d hd
      simp only [ho]
      rw [List.take_add_one, List.getElem?_eq_getElem (by omega : d < (buckets cores bounds rows).length)]
      rw [hsegs d (by omega)]
      simp
    have hmono : ∀ d d', d < d' → d' ≤ cores → o d + (bucket cores bounds 0 rows d).length ≤ o d' := by
      intro d d' hlt
      induction d', hlt using Nat.le_induction with
      | base => intro hle; rw [e1 d (by omega)]
      | succ k hk ihk => intro hle; have := ihk (by omega); rw [e1 k (by omega)]; omega
    have htot : o cores = rows.length := by
      simp only [ho]
      rw [List.take_of_length_le (by omega), ← List.length_flatten]
      exact buckets_flatten_length hb hc rows
    rw [hoff]
    obtain ⟨c', off', out, h1, h2, h3, _⟩ := pack_spec hb rows hok 0 o
      (List.replicate rows.length ⟨Arith.ofInt 0, Arith.ofInt 0, Arith.ofInt 0, Arith.ofInt 0, Arith.ofInt 0⟩) hc
      (by
        intro d hd
        have := hmono d cores hd le_rfl
        rw [List.length_replicate]; omega)
      (by
        intro d hd d' hd' hne j hj j' hj'
        rcases Nat.lt_or_gt_of_ne hne with h | h
        · have := hmono d d' h (by omega); omega
        · have := hmono d' d h (by omega); omega)
    rw [h1]
    simp only [ok_bind]
    congr 1
    apply eq_flatten_of_segments
    · rw [buckets_flatten_length hb hc]; simpa using h2
    · intro d hd j hj
      rw [hsegs d hd] at hj ⊢
      exact h3 d (by omega) j hj
  · rw [if_neg hlen]
    have : rows = [] := List.length_eq_zero_iff.mp (by omega)
    subst this
    congr 1
    symm
    rw [List.flatten_eq_nil_iff]
    unfold buckets
    intro l hl
    obtain ⟨d, _, rfl⟩ := List.mem_map.mp hl
    rfl

end Verif.Tod
