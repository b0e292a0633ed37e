import Verif.Index.Alm
import Verif.Index.Share
import Mathlib.Data.Nat.Sqrt
import Mathlib.Data.List.Nodup
import Mathlib.Data.List.Perm.Basic

/-!
# a_lm tables in FITS files
Model of `levels/Healpix_cxx/alm_fitsio.cc`.  A binary table is the list of its rows
`(index, value)`; `value` stands for the pair (real, imag).  cfitsio itself is not modelled.
Machine-integer overflow is treated in `Verif/Index/Overflow.lean`.
-/

namespace Verif.Fits
open Verif Res Verif.Harm Verif.Share

variable {α : Type}

/-- `isqrt`, levels/cxxsupport/ls_math_utils.h:98-105 (int argument): `uint32(sqrt(arg+0.5))`.
For negative arguments the square root is NaN and the conversion is undefined.  That the
floating-point expression is the integer square root is theorem `C42_isqrt`. -/
def isqrt (arg : Int) : Res Int :=
  if arg < 0 then ub "uint32(NaN)" else ok (Nat.sqrt arg.toNat : Int)

/-- The explicit index, alm_fitsio.cc:176 and :232 (`l*l + l + m + 1`). -/
def code (l m : Int) : Int := l * l + l + m + 1

/-- The decoding steps, alm_fitsio.cc:120-121 (and :65-66). -/
def decode (idx : Int) : Res (Int × Int) := do
  let l ← isqrt (idx - 1)
  ok (l, idx - l * l - l - 1)

/-- Body of the innermost reading loop, alm_fitsio.cc:116-126. -/
def readRow (lmax mmax : Int) (a : Alm α) (row : Int × α) : Res (Alm α) :=
  let maxIndex := lmax * lmax + lmax + mmax + 1
  if row.1 > maxIndex then ok a else do
    let (l, m) ← decode row.1
    if m < 0 then throw "negative m encountered"
    else if ¬ (l ≥ m) then throw "wrong l,m combination"
    else if l ≤ lmax ∧ m ≤ mmax then a.put l m row.2
    else ok a

/-- `read_Alm_from_fits`, alm_fitsio.cc:96-128: chunked loop over the table. -/
def readAlm (zero : α) (rows : List (Int × α)) (chunk : Nat) (lmax mmax : Int) : Res (Alm α) := do
  let a ← mkZero zero lmax mmax
  foldRes (fun a p => foldRes (readRow lmax mmax) a ((rows.drop p.1).take p.2)) a
    ((ChunkMaker.new rows.length chunk).all rows.length)

/-- Position update of the writers, alm_fitsio.cc:181-182, :229-230 and :237-238. -/
def step (mmax : Nat) (p : Nat × Nat) : Nat × Nat :=
  if p.2 + 1 > p.1 ∨ p.2 + 1 > mmax then (p.1 + 1, 0) else (p.1, p.2 + 1)

/-- Number of rows written, alm_fitsio.cc:165 (non-negative limits). -/
def nAlms (lmax mmax : Nat) : Nat := ((mmax + 1) * (mmax + 2)) / 2 + (mmax + 1) * (lmax - mmax)

/-- Value written for a position, alm_fitsio.cc:177-180 (zero outside the expansion). -/
def padded (zero : α) (a : Alm α) (p : Nat × Nat) : Res α :=
  if (p.1 : Int) ≤ a.lmax ∧ (p.2 : Int) ≤ a.mmax then a.get p.1 p.2 else ok zero

/-- Writing loop, alm_fitsio.cc:167-187, from position `p`, `n` rows to go. -/
def writeFrom (zero : α) (a : Alm α) (mmax : Nat) : Nat → Nat × Nat → Res (List (Int × α))
  | 0, _ => ok []
  | n + 1, p => do
    let v ← padded zero a p
    let rest ← writeFrom zero a mmax n (step mmax p)
    ok ((code p.1 p.2, v) :: rest)

/-- `write_Alm_to_fits`, alm_fitsio.cc:152-190: rows of the table (the header keys
`MAX-LPOL`, `MAX-MPOL` are `lmax`, `mmax`). Chunking of the output is not modelled. -/
def writeAlm (zero : α) (a : Alm α) (lmax mmax : Nat) : Res (List (Int × α)) :=
  writeFrom zero a mmax (nAlms lmax mmax) (0, 0)

/-- First loop of `write_compressed_Alm_to_fits`, alm_fitsio.cc:212-215: counts
coefficients with `norm() > 0` (`pos`). -/
def countNonzero (pos : α → Bool) (a : Alm α) (lmax mmax : Nat) : Res Nat :=
  forN (mmax + 1) (fun m s =>
    forN (lmax + 1 - m) (fun k t => do
      let v ← a.get ((m + k : Nat) : Int) (m : Int)
      ok (if pos v then t + 1 else t)) s) 0

/-- `while (alms(l,m).norm()==0)`, alm_fitsio.cc:227-231 (`isZero` is `norm()==0`).  The loop is
bounded by an explicit number of steps; exceeding it is reported as `ub`. -/
def skipZeros (isZero : α → Bool) (a : Alm α) (mmax : Nat) : Nat → Nat × Nat → Res (Nat × Nat)
  | 0, _ => ub "loop bound exceeded"
  | fuel + 1, p => do
    let v ← a.get p.1 p.2
    if isZero v then skipZeros isZero a mmax fuel (step mmax p) else ok p

/-- Writing loop of `write_compressed_Alm_to_fits`, alm_fitsio.cc:217-243. -/
def writeCompFrom (isZero : α → Bool) (a : Alm α) (mmax fuel : Nat) :
    Nat → Nat × Nat → Res (List (Int × α))
  | 0, _ => ok []
  | n + 1, p => do
    let q ← skipZeros isZero a mmax fuel p
    let v ← a.get q.1 q.2
    let rest ← writeCompFrom isZero a mmax fuel n (step mmax q)
    ok ((code q.1 q.2, v) :: rest)

/-- `write_compressed_Alm_to_fits`, alm_fitsio.cc:200-246. -/
def writeCompressed (pos isZero : α → Bool) (a : Alm α) (lmax mmax : Nat) :
    Res (List (Int × α)) := do
  let n ← countNonzero pos a lmax mmax
  writeCompFrom isZero a mmax (nAlms lmax mmax) n (0, 0)

/-- A binary table with its two optional header keys. -/
structure Table (α : Type) where
  maxL : Option Int
  maxM : Option Int
  rows : List (Int × α)

/-- `get_almsize`, alm_fitsio.cc:44-71. -/
def getAlmSize (t : Table α) : Res (Int × Int) :=
  match t.maxL, t.maxM with
  | some l, some m => ok (l, m)
  | _, _ =>
    foldRes (fun s row => do
      let (l, m) ← decode row.1
      ok (if l > s.1 then l else s.1, if m > s.2 then m else s.2)) (-1, -1) t.rows

/-! ## Specification side -/

/-- Value of the last row carrying index `k` (`zero` if there is none). -/
def lastVal (zero : α) (rows : List (Int × α)) (k : Int) : α :=
  match rows.reverse.find? (fun r => r.1 == k) with
  | some r => r.2
  | none => zero

/-- All `(l,m)` with `m ≤ l ≤ lmax`, `m ≤ mmax` in row order. -/
def enum (lmax mmax : Nat) : List (Nat × Nat) :=
  (List.range (lmax + 1)).flatMap (fun l => (List.range (min l mmax + 1)).map (fun m => (l, m)))

/-! ## decoding -/

theorem decode_code {l m : Int} (h1 : -l ≤ m) (h2 : m ≤ l) : decode (code l m) = ok (l, m) := by
  have hl : 0 ≤ l := by omega
  obtain ⟨n, rfl⟩ := Int.eq_ofNat_of_zero_le hl
  unfold decode isqrt code
  have h0 : 0 ≤ (n : Int) * n + n + m := by nlinarith
  rw [if_neg (by omega)]
  have hs : Nat.sqrt ((n : Int) * n + n + m + 1 - 1).toNat = n := by
    symm
    rw [Nat.eq_sqrt]
    constructor
    · zify; rw [Int.toNat_of_nonneg (by omega)]; omega
    · zify; rw [Int.toNat_of_nonneg (by omega)]; nlinarith
  rw [hs]
  simp only [ok_bind]
  congr 2
  omega

theorem decode_pos {idx : Int} (h : 1 ≤ idx) :
    ∃ l m, decode idx = ok (l, m) ∧ -l ≤ m ∧ m ≤ l ∧ idx = code l m := by
  set n := Nat.sqrt (idx - 1).toNat with hn
  have h1 : n * n ≤ (idx - 1).toNat := Nat.sqrt_le _
  have h2 : (idx - 1).toNat < (n + 1) * (n + 1) := Nat.sqrt_lt_self' _
  have hi : ((idx - 1).toNat : Int) = idx - 1 := by omega
  have h1' : (n : Int) * n ≤ idx - 1 := by rw [← hi]; exact_mod_cast h1
  have h2' : idx - 1 < ((n : Int) + 1) * (n + 1) := by rw [← hi]; exact_mod_cast h2
  refine ⟨n, idx - n * n - n - 1, ?_, by omega, by nlinarith, by unfold code; ring⟩
  unfold decode isqrt
  rw [if_neg (by omega), ← hn]
  rfl
where
  Nat.sqrt_lt_self' (k : Nat) : k < (Nat.sqrt k + 1) * (Nat.sqrt k + 1) := Nat.lt_succ_sqrt k

theorem code_inj {l m l' m' : Int} (h1 : -l ≤ m) (h2 : m ≤ l) (h1' : -l' ≤ m') (h2' : m' ≤ l')
    (h : code l m = code l' m') : l = l' ∧ m = m' := by
  have a := decode_code h1 h2
  rw [h, decode_code h1' h2'] at a
  injection a with a; injection a with a b; exact ⟨a.symm, b.symm⟩

theorem code_le_max {lmax mmax l m : Int} (h : Valid lmax mmax l m) :
    code l m ≤ lmax * lmax + lmax + mmax + 1 := by
  obtain ⟨a, b, c, d⟩ := h
  unfold code
  rcases lt_or_eq_of_le d with hlt | rfl
  · nlinarith
  · omega

/-! ## reading -/

theorem foldRes_flatMap {β γ σ : Type} (f : σ → γ → Res σ) (g : β → List γ) (xs : List β) (s : σ) :
    foldRes (fun s x => foldRes f s (g x)) s xs = foldRes f s (xs.flatMap g) := by
  induction xs generalizing s with
  | nil => rfl
  | cons x xs ih =>
    rw [List.flatMap_cons, foldRes_append, foldRes_cons]
    congr 1
    funext t; exact ih t

theorem readAlm_eq (zero : α) (rows : List (Int × α)) {chunk : Nat} (hc : 0 < chunk) (lmax mmax : Int) :
    readAlm zero rows chunk lmax mmax =
      (mkZero zero lmax mmax >>= fun a => foldRes (readRow lmax mmax) a rows) := by
  unfold readAlm
  congr 1
  funext a
  rw [foldRes_flatMap]
  have := all_spec rows chunk hc rows.length 0
    (by have := Nat.le_mul_of_pos_right rows.length hc; omega)
  unfold readChunked at this
  rw [show (ChunkMaker.new rows.length chunk) = ⟨rows.length, chunk, 0⟩ from rfl, this]
  rfl

theorem lastVal_append (zero : α) (rows : List (Int × α)) (r : Int × α) (k : Int) :
    lastVal zero (rows ++ [r]) k = if r.1 = k then r.2 else lastVal zero rows k := by
  unfold lastVal
  rw [List.reverse_append]
  simp only [List.reverse_singleton, List.singleton_append, List.find?_cons]
  by_cases h : r.1 = k
  · simp [h]
  · have : (r.1 == k) = false := by simpa using h
    rw [this]; simp [h]

/-- Row-by-row effect. -/
theorem readRow_spec {lmax mmax : Int} {a : Alm α} (ha : a.WF) (hl : a.lmax = lmax)
    (hm : a.mmax = mmax) {row : Int × α} {l m : Int} (h0 : 0 ≤ m) (hml : m ≤ l)
    (hr : row.1 = code l m) :
    ∃ b, readRow lmax mmax a row = ok b ∧ b.WF ∧ b.lmax = lmax ∧ b.mmax = mmax ∧
      ∀ l' m', Valid lmax mmax l' m' →
        b.get l' m' = if row.1 = code l' m' then ok row.2 else a.get l' m' := by
  subst hl; subst hm
  unfold readRow
  by_cases hbig : row.1 > a.lmax * a.lmax + a.lmax + a.mmax + 1
  · rw [if_pos hbig]
    refine ⟨a, rfl, ha, rfl, rfl, ?_⟩
    intro l' m' hv
    rw [if_neg]
    intro e; have := code_le_max hv; omega
  · rw [if_neg hbig, hr, decode_code (by omega) hml]
    simp only [ok_bind]
    rw [if_neg (by omega), if_neg (by omega)]
    by_cases hin : l ≤ a.lmax ∧ m ≤ a.mmax
    · rw [if_pos hin]
      have hv : Valid a.lmax a.mmax l m := ⟨h0, hin.2, hml, hin.1⟩
      have hp := a.put_ok ha hv row.2
      have hwf := Alm.put_wf ha hp
      refine ⟨_, hp, hwf.1, rfl, rfl, ?_⟩
      intro l' m' hv'
      by_cases e : code l m = code l' m'
      · obtain ⟨rfl, rfl⟩ := code_inj (by omega) hml (by have := hv'.1; have := hv'.2.2.1; omega) hv'.2.2.1 e
        rw [if_pos rfl]; exact Alm.get_put_same hp
      · rw [if_neg e]
        refine Alm.get_put_other ha hv hv' ?_ hp
        rintro ⟨⟩; exact e rfl
    · rw [if_neg hin]
      refine ⟨a, rfl, ha, rfl, rfl, ?_⟩
      intro l' m' hv'
      rw [if_neg]
      intro e
      obtain ⟨rfl, rfl⟩ := code_inj (by omega) hml (by have := hv'.1; have := hv'.2.2.1; omega) hv'.2.2.1 e
      exact hin ⟨hv'.2.2.2, hv'.2.1⟩

theorem readRow_skip {lmax mmax : Int} {a : Alm α} {row : Int × α}
    (h : row.1 > lmax * lmax + lmax + mmax + 1) : readRow lmax mmax a row = ok a := by
  unfold readRow; rw [if_pos h]

/-- The rows the reader accepts: out of the index range, or encoding some `0 ≤ m ≤ l`. -/
def RowOk (lmax mmax : Int) (r : Int × α) : Prop :=
  r.1 > lmax * lmax + lmax + mmax + 1 ∨ ∃ l m, 0 ≤ m ∧ m ≤ l ∧ r.1 = code l m

theorem fold_spec {lmax mmax : Int} (zero : α) (a : Alm α) (ha : a.WF) (hl : a.lmax = lmax)
    (hm : a.mmax = mmax) (hz : ∀ l m, Valid lmax mmax l m → a.get l m = ok zero)
    (rows : List (Int × α)) (hrows : ∀ r ∈ rows, RowOk lmax mmax r) :
    ∃ b, foldRes (readRow lmax mmax) a rows = ok b ∧ b.WF ∧ b.lmax = lmax ∧ b.mmax = mmax ∧
      ∀ l m, Valid lmax mmax l m → b.get l m = ok (lastVal zero rows (code l m)) := by
  induction rows using List.reverseRecOn with
  | nil => exact ⟨a, rfl, ha, hl, hm, by intro l m hv; rw [hz l m hv]; rfl⟩
  | append_singleton rows r ih =>
    obtain ⟨b, hb, hwf, hl', hm', hg⟩ := ih (fun x hx => hrows x (by simp [hx]))
    rw [foldRes_append, hb]
    simp only [Res.bind, foldRes_cons, foldRes_nil]
    rcases hrows r (by simp) with hbig | ⟨l, m, h0, hml, he⟩
    · rw [readRow_skip hbig]
      refine ⟨b, rfl, hwf, hl', hm', ?_⟩
      intro l m hv
      rw [lastVal_append, if_neg (by have := code_le_max hv; omega)]
      exact hg l m hv
    · obtain ⟨c, hc, hcw, hcl, hcm, hcg⟩ := readRow_spec hwf hl' hm' h0 hml he
      rw [hc]
      refine ⟨c, rfl, hcw, hcl, hcm, ?_⟩
      intro l' m' hv
      rw [hcg l' m' hv, lastVal_append]
      split
      · rfl
      · exact hg l' m' hv

/-- Errors are permanent: a bad row makes the fold throw if all rows before it were processed
without undefined behaviour. -/
theorem fold_throw {lmax mmax : Int} (hmm : mmax ≤ lmax) (a : Alm α) (ha : a.WF) (hl : a.lmax = lmax)
    (hm : a.mmax = mmax) (rows : List (Int × α)) (hpos : ∀ r ∈ rows, 1 ≤ r.1)
    (hbad : ∃ r ∈ rows, ¬ RowOk lmax mmax r) :
    (foldRes (readRow lmax mmax) a rows).IsThrow := by
  induction rows generalizing a with
  | nil => simp at hbad
  | cons r rows ih =>
    rw [foldRes_cons]
    obtain ⟨l, m, hd, h1, h2, he⟩ := decode_pos (hpos r (by simp))
    by_cases hr : RowOk lmax mmax r
    · have hbad' : ∃ r ∈ rows, ¬ RowOk lmax mmax r := by
        obtain ⟨x, hx, hxb⟩ := hbad
        rcases List.mem_cons.mp hx with rfl | hx
        · exact absurd hr hxb
        · exact ⟨x, hx, hxb⟩
      rcases hr with hbig | ⟨l', m', h0', hml', he'⟩
      · rw [readRow_skip hbig]; exact ih a ha hl hm (fun x hx => hpos x (by simp [hx])) hbad'
      · obtain ⟨c, hc, hcw, hcl, hcm, _⟩ := readRow_spec ha hl hm h0' hml' he'
        rw [hc]; exact ih c hcw hcl hcm (fun x hx => hpos x (by simp [hx])) hbad'
    · have hsmall : ¬ r.1 > lmax * lmax + lmax + mmax + 1 := fun h => hr (Or.inl h)
      have hneg : m < 0 := by
        by_contra hge
        exact hr (Or.inr ⟨l, m, by omega, h2, he⟩)
      have : readRow lmax mmax a r = throw "negative m encountered" := by
        unfold readRow; rw [if_neg hsmall, hd]; simp only [ok_bind]; rw [if_pos hneg]
      rw [this]; trivial

/-! ## writing -/

/-- positions visited by the writers -/
def walk (mmax : Nat) : Nat → Nat × Nat → List (Nat × Nat)
  | 0, _ => []
  | n + 1, p => p :: walk mmax n (step mmax p)

theorem walk_row (mmax l n : Nat) : ∀ (k m : Nat), m + k = min l mmax + 1 →
    walk mmax (k + n) (l, m) = (List.range' m k).map (fun j => (l, j)) ++
      walk mmax n (if k = 0 then (l, m) else (l + 1, 0)) := by
  intro k
  induction k with
  | zero => intro m _; simp
  | succ k ih =>
    intro m h
    rw [show k + 1 + n = (k + n) + 1 by omega, walk, List.range'_succ]
    by_cases hk : k = 0
    · subst hk
      have : step mmax (l, m) = (l + 1, 0) := by
        unfold step; rw [if_pos]; simp only; omega
      simp [this]
    · have : step mmax (l, m) = (l, m + 1) := by
        unfold step; rw [if_neg]; simp only; omega
      rw [this, ih (m + 1) (by omega)]
      simp [hk]

/-- number of coefficients with `l < L` -/
def rowsBelow (mmax : Nat) : Nat → Nat
  | 0 => 0
  | L + 1 => rowsBelow mmax L + (min L mmax + 1)

theorem walk_rows (mmax n : Nat) : ∀ (L l0 : Nat),
    walk mmax ((((List.range' l0 L).map (fun l => min l mmax + 1)).sum) + n) (l0, 0) =
      (List.range' l0 L).flatMap (fun l => (List.range (min l mmax + 1)).map (fun m => (l, m))) ++
        walk mmax n (l0 + L, 0) := by
  intro L
  induction L with
  | zero => intro l0; simp
  | succ L ih =>
    intro l0
    rw [List.range'_succ, List.map_cons, List.sum_cons, List.flatMap_cons, Nat.add_assoc]
    rw [walk_row mmax l0 _ (min l0 mmax + 1) 0 (by omega), if_neg (by omega), ih (l0 + 1)]
    rw [List.append_assoc, List.range_eq_range', show l0 + 1 + L = l0 + (L + 1) by omega]

theorem rowsBelow_eq_sum (mmax L : Nat) :
    ((List.range' 0 L).map (fun l => min l mmax + 1)).sum = rowsBelow mmax L := by
  induction L with
  | zero => rfl
  | succ L ih => rw [List.range'_concat]; simp [rowsBelow, ih]

theorem rowsBelow_tri (mmax L : Nat) (h : L ≤ mmax + 1) : rowsBelow mmax L * 2 = L * (L + 1) := by
  induction L with
  | zero => rfl
  | succ L ih => unfold rowsBelow; rw [Nat.min_eq_left (by omega), Nat.add_mul, ih (by omega)]; ring

theorem nAlms_eq {lmax mmax : Nat} (h : mmax ≤ lmax) : nAlms lmax mmax = rowsBelow mmax (lmax + 1) := by
  obtain ⟨d, rfl⟩ := Nat.exists_eq_add_of_le h
  have base : rowsBelow mmax (mmax + 1) = ((mmax + 1) * (mmax + 2)) / 2 := by
    have := rowsBelow_tri mmax (mmax + 1) le_rfl
    rw [← this, Nat.mul_div_cancel _ (by norm_num)]
  unfold nAlms
  rw [← base, Nat.add_sub_cancel_left]
  induction d with
  | zero => simp
  | succ d ih =>
    have h1 := ih (by omega)
    have h2 : rowsBelow mmax (mmax + (d + 1) + 1) =
        rowsBelow mmax (mmax + d + 1) + (min (mmax + d + 1) mmax + 1) := rfl
    rw [h2, ← h1, Nat.min_eq_right (by omega)]
    ring

theorem walk_enum {lmax mmax : Nat} (h : mmax ≤ lmax) (n : Nat) :
    walk mmax (nAlms lmax mmax + n) (0, 0) = enum lmax mmax ++ walk mmax n (lmax + 1, 0) := by
  have := walk_rows mmax n (lmax + 1) 0
  rw [rowsBelow_eq_sum, ← nAlms_eq h] at this
  rw [this]; unfold enum; rw [List.range_eq_range', Nat.zero_add]

theorem mem_enum {lmax mmax : Nat} {p : Nat × Nat} :
    p ∈ enum lmax mmax ↔ p.1 ≤ lmax ∧ p.2 ≤ p.1 ∧ p.2 ≤ mmax := by
  unfold enum
  simp only [List.mem_flatMap, List.mem_range, List.mem_map]
  constructor
  · rintro ⟨l, hl, m, hm, rfl⟩; simp only; omega
  · rintro ⟨h1, h2, h3⟩; exact ⟨p.1, by omega, p.2, by omega, rfl⟩

theorem writeFrom_walk (zero : α) (a : Alm α) (mmax : Nat) (val : Nat × Nat → α) :
    ∀ (n : Nat) (p : Nat × Nat), (∀ q ∈ walk mmax n p, padded zero a q = ok (val q)) →
      writeFrom zero a mmax n p = ok ((walk mmax n p).map (fun q => (code q.1 q.2, val q))) := by
  intro n
  induction n with
  | zero => intro p _; rfl
  | succ n ih =>
    intro p h
    have hp := h p (by simp [walk])
    have ht := ih (step mmax p) (fun q hq => h q (by simp [walk, hq]))
    unfold writeFrom
    rw [hp, ht]
    rfl

/-! ## compressed writing -/

theorem skipZeros_spec (isZero : α → Bool) (a : Alm α) (mmax : Nat) (val : Nat × Nat → α) :
    ∀ (n fuel : Nat) (p : Nat × Nat), n ≤ fuel → (∀ q ∈ walk mmax n p, a.get q.1 q.2 = ok (val q)) →
      ∀ q qs, (walk mmax n p).filter (fun q => !isZero (val q)) = q :: qs →
        skipZeros isZero a mmax fuel p = ok q ∧
        ∃ k < n, (walk mmax k (step mmax q)).filter (fun q => !isZero (val q)) = qs ∧
          (∀ q' ∈ walk mmax k (step mmax q), a.get q'.1 q'.2 = ok (val q')) ∧
          a.get q.1 q.2 = ok (val q) := by
  intro n
  induction n with
  | zero => intro fuel p _ _ q qs h; simp [walk] at h
  | succ n ih =>
    intro fuel p hf hg q qs h
    obtain ⟨fuel, rfl⟩ : ∃ f, fuel = f + 1 := ⟨fuel - 1, by omega⟩
    have hp := hg p (by simp [walk])
    unfold skipZeros
    rw [hp]
    simp only [ok_bind]
    rw [walk, List.filter_cons] at h
    by_cases hz : isZero (val p) = true
    · rw [if_pos hz]
      rw [hz] at h
      obtain ⟨h1, k, hk, h2⟩ := ih fuel (step mmax p) (by omega)
        (fun q hq => hg q (by simp [walk, hq])) q qs (by simpa using h)
      exact ⟨h1, k, by omega, h2⟩
    · rw [if_neg hz]
      have hz' : isZero (val p) = false := by simpa using hz
      rw [hz'] at h
      simp at h
      obtain ⟨rfl, h⟩ := h
      exact ⟨rfl, n, by omega, h, fun q hq => hg q (by simp [walk, hq]), hp⟩

theorem writeCompFrom_spec (isZero : α → Bool) (a : Alm α) (mmax fuel : Nat) (val : Nat × Nat → α) :
    ∀ (qs : List (Nat × Nat)) (n : Nat) (p : Nat × Nat), n ≤ fuel →
      (∀ q ∈ walk mmax n p, a.get q.1 q.2 = ok (val q)) →
      (walk mmax n p).filter (fun q => !isZero (val q)) = qs →
      writeCompFrom isZero a mmax fuel qs.length p =
        ok (qs.map (fun q => (code q.1 q.2, val q))) := by
  intro qs
  induction qs with
  | nil => intro n p _ _ _; rfl
  | cons q qs ih =>
    intro n p hn hg h
    obtain ⟨h1, k, hk, h2, h3, h4⟩ := skipZeros_spec isZero a mmax val n fuel p hn hg q qs h
    have := ih k (step mmax q) (by omega) h3 h2
    unfold writeCompFrom
    simp only [List.length_cons]
    rw [h1]
    simp only [ok_bind, h4, this]
    rfl

/-- column-wise enumeration of the counting loop -/
def enumCol (lmax mmax : Nat) : List (Nat × Nat) :=
  (List.range (mmax + 1)).flatMap (fun m => (List.range (lmax + 1 - m)).map (fun k => (m + k, m)))

theorem enumCol_perm {lmax mmax : Nat} : (enumCol lmax mmax).Perm (enum lmax mmax) := by
  rw [List.perm_ext_iff_of_nodup]
  · intro p
    rw [mem_enum]
    unfold enumCol
    simp only [List.mem_flatMap, List.mem_range, List.mem_map]
    constructor
    · rintro ⟨m, hm, k, hk, rfl⟩; simp only; omega
    · rintro ⟨h1, h2, h3⟩
      exact ⟨p.2, by omega, p.1 - p.2, by omega, by ext <;> simp <;> omega⟩
  · unfold enumCol
    rw [List.nodup_flatMap]
    refine ⟨?_, ?_⟩
    · intro m _
      refine List.Nodup.map ?_ List.nodup_range
      intro a b h; simp at h; exact h
    · refine List.Pairwise.imp_of_mem ?_ (List.nodup_range (n := mmax + 1))
      intro a b _ _ hab
      simp only [Function.onFun, List.disjoint_left, List.mem_map, List.mem_range]
      rintro p ⟨k, _, rfl⟩ ⟨k', _, h⟩
      simp at h; omega
  · unfold enum
    rw [List.nodup_flatMap]
    refine ⟨?_, ?_⟩
    · intro m _
      refine List.Nodup.map ?_ List.nodup_range
      intro a b h; simpa using h
    · refine List.Pairwise.imp_of_mem ?_ (List.nodup_range (n := lmax + 1))
      intro a b _ _ hab
      simp only [Function.onFun, List.disjoint_left, List.mem_map, List.mem_range]
      rintro p ⟨k, _, rfl⟩ ⟨k', _, h⟩
      simp at h; omega

theorem countNonzero_spec (pos : α → Bool) (a : Alm α) (lmax mmax : Nat) (val : Nat × Nat → α)
    (hg : ∀ q ∈ enum lmax mmax, a.get q.1 q.2 = ok (val q)) :
    countNonzero pos a lmax mmax = ok ((enum lmax mmax).countP (fun q => pos (val q))) := by
  have hg' : ∀ q ∈ enumCol lmax mmax, a.get q.1 q.2 = ok (val q) :=
    fun q hq => hg q (enumCol_perm.mem_iff.mp hq)
  rw [← enumCol_perm.countP_eq]
  have inner : ∀ m s, m < mmax + 1 →
      forN (lmax + 1 - m) (fun k t => do
        let v ← a.get ((m + k : Nat) : Int) (m : Int)
        ok (if pos v then t + 1 else t)) s =
      ok (s + ((List.range (lmax + 1 - m)).map (fun k => (m + k, m))).countP (fun q => pos (val q))) := by
    intro m s hm
    have key := forN_inv (lmax + 1 - m) (fun k t => do
        let v ← a.get ((m + k : Nat) : Int) (m : Int)
        ok (if pos v then t + 1 else t)) s
      (fun k t => t = s + ((List.range k).map (fun k => (m + k, m))).countP (fun q => pos (val q)))
      (by simp) ?_
    · obtain ⟨t, ht, e⟩ := key; rw [ht, e]
    · intro k t hk ht
      have hv := hg' (m + k, m) (by
        unfold enumCol
        simp only [List.mem_flatMap, List.mem_range, List.mem_map]
        exact ⟨m, hm, k, hk, rfl⟩)
      refine ⟨_, by rw [hv]; rfl, ?_⟩
      rw [List.range_succ, List.map_append, List.countP_append, ht]
      by_cases hp : pos (val (m + k, m)) = true
      · simp [hp, Nat.add_assoc]
      · simp [hp]
  unfold countNonzero enumCol
  have key := forN_inv (mmax + 1) (fun m s =>
    forN (lmax + 1 - m) (fun k t => do
      let v ← a.get ((m + k : Nat) : Int) (m : Int)
      ok (if pos v then t + 1 else t)) s) 0
    (fun m s => s = ((List.range m).flatMap (fun m => (List.range (lmax + 1 - m)).map
      (fun k => (m + k, m)))).countP (fun q => pos (val q))) (by simp) ?_
  · obtain ⟨t, ht, e⟩ := key; rw [ht, e]
  · intro m s hm hs
    refine ⟨_, inner m s hm, ?_⟩
    rw [List.range_succ, List.flatMap_append, List.countP_append, hs]
    simp

/-- `lastVal` when all rows with index `k` agree. -/
theorem lastVal_eq (zero : α) (rows : List (Int × α)) (k : Int) (v : α)
    (hex : ∃ r ∈ rows, r.1 = k) (hall : ∀ r ∈ rows, r.1 = k → r.2 = v) : lastVal zero rows k = v := by
  unfold lastVal
  cases hf : rows.reverse.find? (fun r => r.1 == k) with
  | some r =>
    have h1 := List.find?_some hf
    have h2 := List.mem_of_find?_eq_some hf
    simp only
    exact hall r (by simpa using h2) (by simpa using h1)
  | none =>
    rw [List.find?_eq_none] at hf
    obtain ⟨r, hr, e⟩ := hex
    exact absurd (by simpa using e) (hf r (by simpa using hr))

theorem lastVal_none (zero : α) (rows : List (Int × α)) (k : Int)
    (h : ∀ r ∈ rows, r.1 ≠ k) : lastVal zero rows k = zero := by
  unfold lastVal
  have : rows.reverse.find? (fun r => r.1 == k) = none := by
    rw [List.find?_eq_none]; intro r hr; simpa using h r (by simpa using hr)
  rw [this]

end Verif.Fits
