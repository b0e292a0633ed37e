import Verif.Fits.HandleProps
import Verif.Index.FitsProps

/-!
# C73: spherical harmonic coefficients through the file handle

`read_Alm_from_fits(fitshandle&, …)`, `get_almsize(fitshandle&, …)` and `write_Alm_to_fits(fitshandle&, …)`
(levels/Healpix_cxx/alm_fitsio.cc) as methods on the handle model, and their agreement with the model on lists of rows
(`Index/Fits.lean`).  cfitsio's conversions between the stored numbers and `int` / `float` / `double` are the functions
`Codec`.
-/

namespace Verif.Fh
open Verif Res Verif.Harm Verif.Fits Verif.Share
variable {V α : Type}

/-- cfitsio's conversion of stored numbers, and of numbers to be stored. -/
structure Codec (V α : Type) where
  toInt : V → ℤ
  ofInt : ℤ → V
  join : V → V → α
  re : α → V
  im : α → V

/-- The rows of a chunk, alm_fitsio.cc:109-114, 118-125: `index[i]`, `re[i]`, `im[i]`. -/
def zipRows (K : Codec V α) (xs ys zs : List V) : List (ℤ × α) :=
  List.zipWith (fun x p => (K.toInt x, K.join p.1 p.2)) xs (List.zip ys zs)

/-- The loop over the chunks, alm_fitsio.cc:106-128; `t` is the type of `re`, `im` in memory. -/
def readChunks (K : Codec V α) (t : PDT) (lmax mmax : ℤ) : List (ℕ × ℕ) → Alm α → M V (Alm α)
  | [], a => pure a
  | p :: ps, a => do
    let xs ← readColumn 1 .int32 p.2 p.1
    let ys ← readColumn 2 t p.2 p.1
    let zs ← readColumn 3 t p.2 p.1
    let a' ← lift (foldRes (readRow lmax mmax) a (zipRows K xs ys zs))
    readChunks K t lmax mmax ps a'

/-- `safe_cast<int>` of an `int64`, ls_safe_cast.h (C70): the value must be an `int`. -/
def intRange (n : ℤ) : Bool := decide (-2147483648 ≤ n ∧ n ≤ 2147483647)

theorem intRange_nat {n : ℕ} (h : n < 2147483648) : intRange n = true := by
  unfold intRange
  exact decide_eq_true ⟨by omega, by omega⟩

/-- `read_Alm_from_fits(inp, alms, lmax, mmax)`, alm_fitsio.cc:96-128. -/
def readAlmH (X : Ext V) (K : Codec V α) (zero : α) (t : PDT) (lmax mmax : ℤ) : M V (Alm α) := do
  let n ← nelems 1
  req (intRange n) "safe_cast: value out of range"
  let a ← lift (mkZero zero lmax mmax)
  let chunk ← efficientChunkSize X 1
  readChunks K t lmax mmax ((ChunkMaker.new n.toNat chunk.toNat).all n.toNat) a

/-- The scan of the index column, alm_fitsio.cc:55-70. -/
def scanChunks (K : Codec V α) : List (ℕ × ℕ) → ℤ × ℤ → M V (ℤ × ℤ)
  | [], s => pure s
  | p :: ps, s => do
    let xs ← readColumn 1 .int32 p.2 p.1
    let s' ← lift (foldRes (fun s x => do
      let (l, m) ← decode (K.toInt x)
      ok (if l > s.1 then l else s.1, if m > s.2 then m else s.2)) s xs)
    scanChunks K ps s'

/-- `get_almsize(inp, lmax, mmax)`, alm_fitsio.cc:44-71. -/
def almSizeH (X : Ext V) (K : Codec V α) : M V (ℤ × ℤ) := do
  let b1 ← keyPresent "MAX-LPOL"
  let b2 ← (if b1 then keyPresent "MAX-MPOL" else pure false)
  if b1 && b2 then do
    let l ← getKey "MAX-LPOL" .int32
    let m ← getKey "MAX-MPOL" .int32
    pure (K.toInt l, K.toInt m)
  else do
    let n ← nelems 1
    req (intRange n) "safe_cast: value out of range"
    let chunk ← efficientChunkSize X 1
    scanChunks K ((ChunkMaker.new n.toNat chunk.toNat).all n.toNat) (-1, -1)

/-- The loop over the chunks, alm_fitsio.cc:170-188; `p` is the pair `l`, `m`. -/
def writeChunks (X : Ext V) (cut : ℤ → V → V) (K : Codec V α) (zero : α) (a : Alm α) (mmax : ℕ) :
    List (ℕ × ℕ) → ℕ × ℕ → M V Unit
  | [], _ => pure ()
  | (off, pp) :: rest, p => do
    let rows ← lift (writeFrom zero a mmax pp p)
    writeColumn X cut 1 (rows.map (fun r => K.ofInt r.1)) .int32 off
    writeColumn X cut 2 (rows.map (fun r => K.re r.2)) .float64 off
    writeColumn X cut 3 (rows.map (fun r => K.im r.2)) .float64 off
    writeChunks X cut K zero a mmax rest ((step mmax)^[pp] p)

/-- The description of the columns, alm_fitsio.cc:157-159. -/
def almCols (datatype : PDT) : List ColInfo :=
  [⟨"index", "l*l+l+m+1", 1, .int32⟩, ⟨"real", "unknown", 1, datatype⟩, ⟨"imag", "unknown", 1, datatype⟩]

/-- `write_Alm_to_fits(out, alms, lmax, mmax, datatype)`, alm_fitsio.cc:152-191. -/
def writeAlmH (X : Ext V) (cut : ℤ → V → V) (K : Codec V α) (zero : α) (a : Alm α) (lmax mmax : ℕ) (datatype : PDT) :
    M V Unit := do
  insertBintab (almCols datatype)
  let chunk ← efficientChunkSize X 1
  writeChunks X cut K zero a mmax ((ChunkMaker.new (nAlms lmax mmax) chunk.toNat).all (nAlms lmax mmax)) (0, 0)
  setKey "MAX-LPOL" (K.ofInt lmax) .int32
  setKey "MAX-MPOL" (K.ofInt mmax) .int32

/-! ## Reading -/

/-- The current HDU is a table of coefficients: three numeric columns, one index and one value per element. -/
structure AlmTable (s : St V) (n : ℕ) (ci cr cm : FCol V) : Prop where
  cur : ∃ b rest, CurTable s b n (ci :: cr :: cm :: rest)
  num : ci.ftc ≠ .string ∧ cr.ftc ≠ .string ∧ cm.ftc ≠ .string
  rep : 0 < ci.rep ∧ 0 < cr.rep ∧ 0 < cm.rep
  len : ci.cells.length ≤ cr.cells.length ∧ ci.cells.length ≤ cm.cells.length
  small : ci.cells.length < 2147483648

/-- The rows of the table: the elements of the three columns in file order. -/
def tableRows (K : Codec V α) (ci cr cm : FCol V) : List (ℤ × α) := zipRows K ci.cells cr.cells cm.cells

theorem zipRows_length (K : Codec V α) {xs ys zs : List V} (h1 : xs.length ≤ ys.length) (h2 : xs.length ≤ zs.length) :
    (zipRows K xs ys zs).length = xs.length := by
  unfold zipRows; simp; omega

theorem zipRows_window (K : Codec V α) (xs ys zs : List V) (o n : ℕ) :
    zipRows K ((xs.drop o).take n) ((ys.drop o).take n) ((zs.drop o).take n) = ((zipRows K xs ys zs).drop o).take n := by
  unfold zipRows
  rw [List.drop_zipWith, List.take_zipWith, List.zip_eq_zipWith, List.zip_eq_zipWith, List.drop_zipWith, List.take_zipWith]

theorem colInfo_synced {s : St V} (hs : Synced true s) {b : Bool} {n : ℕ} {cols : List (FCol V)} (ht : CurTable s b n cols)
    {col : ℤ} (h1 : 1 ≤ col) (h2 : col ≤ cols.length) : ∃ i, colInfo col s = (ok i, s) := by
  obtain ⟨g1, g2, g3, g4⟩ := synced_full hs ht
  have htab : tableHdu s col = true := by
    unfold tableHdu
    rw [g1, g3]
    cases b <;> simp [h2] <;> omega
  obtain ⟨i, hi⟩ := colAt_tableHdu htab
  exact ⟨i, by rw [colInfo_run, if_pos htab, hi]⟩

theorem nelems_synced {s : St V} (hs : Synced true s) (hg : GoodSt s) {b : Bool} {n : ℕ} {cols : List (FCol V)}
    (ht : CurTable s b n cols) {col : ℤ} (h1 : 1 ≤ col) {c : FCol V} (hc : cols[(col - 1).toNat]? = some c) :
    nelems col s = (ok (c.cells.length : ℤ), s) := by
  have hlt : (col - 1).toNat < cols.length := by
    by_contra h
    rw [List.getElem?_eq_none (by omega)] at hc
    simp at hc
  obtain ⟨i, hi⟩ := colInfo_synced hs ht h1 (by omega)
  rw [colInfo_run] at hi
  split at hi
  case isFalse => simp at hi
  rename_i htab
  injection hi with hi _
  obtain ⟨o, b', n', cols', keys, c', g1, g2, g3, g4, g5⟩ := synced_col hs hi
  obtain ⟨rfl, rfl, rfl⟩ := curTable_unique ht ⟨o, keys, g1, g2⟩
  rw [hc] at g4; injection g4 with e; subst e
  rw [nelems_run, if_pos htab, hi, ok_bind, elems_eq hg ht hc g5, g3]
  split <;> rfl

theorem chunkSize_synced {X : Ext V} (hX : ∀ o, 1 ≤ X.rowsize o) {s : St V} (hs : Synced true s) (hg : GoodSt s) {b : Bool}
    {n : ℕ} {c : FCol V} {rest : List (FCol V)} (ht : CurTable s b n (c :: rest)) (hnum : c.ftc ≠ .string) (hrep : 0 < c.rep) :
    ∃ k : ℤ, 0 < k ∧ efficientChunkSize X 1 s = (ok k, s) := by
  obtain ⟨i, hi⟩ := colInfo_synced hs ht (col := 1) le_rfl (by simp)
  rw [colInfo_run] at hi
  split at hi
  case isFalse => simp at hi
  rename_i htab
  injection hi with hi _
  obtain ⟨o, b', n', cols', keys, c', g1, g2, g3, g4, g5⟩ := synced_col hs hi
  obtain ⟨rfl, rfl, rfl⟩ := curTable_unique ht ⟨o, keys, g1, g2⟩
  simp only [sub_self, Int.toNat_zero, List.getElem?_cons_zero, Option.some.injEq] at g4
  subst g4
  have hpos : 0 < i.repcount := by
    rw [g5.2.2.1]
    cases b with
    | true => simpa using hrep
    | false => simp
  refine ⟨X.rowsize o * i.repcount, Int.mul_pos (by have := hX o; omega) hpos, ?_⟩
  unfold efficientChunkSize
  rw [get_bind, req_bind, if_pos htab, file_bind, g1]
  simp only [req_bind]
  rw [if_pos (by simpa using hX o), hi, lift_ok_bind, pure_run]

theorem readChunks_run {K : Codec V α} {t : PDT} (hts : t ≠ .string) (htt : colType t = true) {lmax mmax : ℤ} {s : St V}
    (hs : Synced true s) (hg : GoodSt s) {n : ℕ} {ci cr cm : FCol V} (ht : AlmTable s n ci cr cm) :
    ∀ (ps : List (ℕ × ℕ)), (∀ p ∈ ps, p.1 + p.2 ≤ ci.cells.length) → ∀ a,
      readChunks K t lmax mmax ps a s =
        (foldRes (fun a p => foldRes (readRow lmax mmax) a (((tableRows K ci cr cm).drop p.1).take p.2)) a ps, s) := by
  obtain ⟨b, rest, hcur⟩ := ht.cur
  obtain ⟨i1, hi1⟩ := colInfo_synced hs hcur (col := 1) (by omega) (by simp; omega)
  obtain ⟨i2, hi2⟩ := colInfo_synced hs hcur (col := 2) (by omega) (by simp; omega)
  obtain ⟨i3, hi3⟩ := colInfo_synced hs hcur (col := 3) (by omega) (by simp; omega)
  intro ps
  induction ps with
  | nil => intro _ a; rfl
  | cons p ps ih =>
    intro hp a
    have hp0 := hp p (by simp)
    unfold readChunks
    rw [bind_run, readColumn_synced hs hg hi1 hcur (by rfl) ht.num.1 ht.rep.1 (by decide) rfl, if_pos hp0]
    simp only
    rw [bind_run, readColumn_synced hs hg hi2 hcur (by rfl) ht.num.2.1 ht.rep.2.1 hts htt, if_pos (hp0.trans ht.len.1)]
    simp only
    rw [bind_run, readColumn_synced hs hg hi3 hcur (by rfl) ht.num.2.2 ht.rep.2.2 hts htt, if_pos (hp0.trans ht.len.2)]
    simp only
    rw [bind_run, lift_run, zipRows_window, foldRes_cons]
    unfold tableRows
    cases foldRes (readRow lmax mmax) a (((zipRows K ci.cells cr.cells cm.cells).drop p.1).take p.2) with
    | ok a' =>
      simp only [ok_bind]
      rw [ih (fun q hq => hp q (List.mem_cons_of_mem _ hq)) a']
      rfl
    | throw m => rfl
    | ub w => rfl

/-- Reading through a handle that is in step with the file is reading the rows. -/
theorem readAlmH_run {X : Ext V} (hX : ∀ o, 1 ≤ X.rowsize o) {K : Codec V α} {zero : α} {t : PDT} (hts : t ≠ .string)
    (htt : colType t = true) {lmax mmax : ℤ} {s : St V} (hs : Synced true s) (hg : GoodSt s) {n : ℕ} {ci cr cm : FCol V}
    (ht : AlmTable s n ci cr cm) :
    ∃ chunk, 0 < chunk ∧ readAlmH X K zero t lmax mmax s = (readAlm zero (tableRows K ci cr cm) chunk lmax mmax, s) := by
  obtain ⟨b, rest, hcur⟩ := ht.cur
  obtain ⟨k, hk, hce⟩ := chunkSize_synced hX hs hg hcur ht.num.1 ht.rep.1
  refine ⟨k.toNat, by omega, ?_⟩
  have hlen : (tableRows K ci cr cm).length = ci.cells.length := zipRows_length K ht.len.1 ht.len.2
  unfold readAlmH
  rw [bind_run, nelems_synced hs hg hcur le_rfl (by rfl)]
  simp only
  rw [req_bind, if_pos (intRange_nat ht.small)]
  unfold readAlm
  rw [bind_run, lift_run]
  cases mkZero zero lmax mmax with
  | throw m => rfl
  | ub w => rfl
  | ok a =>
    simp only [ok_bind]
    rw [bind_run, hce]
    simp only [Int.toNat_natCast]
    rw [readChunks_run hts htt hs hg ht, hlen]
    intro p hp
    exact (all_pos _ _ (by omega) _ _ p hp).2.2.2

/-- **C73 (coefficients, read).** In every state reached by calls that returned, reading coefficients through the handle is
reading the rows of the table, whatever number of elements the columns have per row and whatever chunk size cfitsio
recommends. -/
theorem C73_read_alm_partial {X : Ext V} (hX : ∀ o, 1 ≤ X.rowsize o) {cut : ℤ → V → V} {disk : String → Option (List (Hdu V))}
    {s : St V} (hd : ∀ f hs, disk f = some hs → GoodFile hs) (h : Hist X cut true (fresh disk) s) {n : ℕ} {ci cr cm : FCol V}
    (ht : AlmTable s n ci cr cm) (K : Codec V α) (zero : α) {t : PDT} (hts : t ≠ .string) (htt : colType t = true)
    {lmax mmax : ℤ} (h0 : 0 ≤ mmax) (hm : mmax ≤ lmax)
    (hrows : ∀ r ∈ tableRows K ci cr cm, r.1 > lmax * lmax + lmax + mmax + 1 ∨ ∃ l m, 0 ≤ m ∧ m ≤ l ∧ r.1 = code l m) :
    ∃ a, readAlmH X K zero t lmax mmax s = (ok a, s) ∧ a.WF ∧ a.lmax = lmax ∧ a.mmax = mmax ∧
      ∀ l m, Valid lmax mmax l m → a.get l m = ok (lastVal zero (tableRows K ci cr cm) (code l m)) := by
  obtain ⟨hs, hg⟩ := hist_sync h (fresh_good hd) (fresh_synced true disk)
  obtain ⟨chunk, hc, hr⟩ := readAlmH_run hX hts htt hs hg ht (K := K) (zero := zero) (lmax := lmax) (mmax := mmax)
  obtain ⟨a, h1, h2⟩ := C27_read zero (tableRows K ci cr cm) chunk hc lmax mmax h0 hm hrows
  exact ⟨a, by rw [hr, h1], h2⟩

end Verif.Fh
