import Verif.Fits.HandleHist
import Mathlib.Tactic.Push

/-!
# C73: the FITS file handle tells the truth about the file and reads and writes what it is asked to
-/

namespace Verif.Fh
open Verif Res
variable {V : Type}

/-! ## Queries -/

theorem colInfo_run (i : ℤ) (s : St V) : colInfo i s =
    if tableHdu s i then (colAt s i, s) else (throw "incorrect FITS table access", s) := by
  unfold colInfo; rw [get_bind, req_bind]; rfl

theorem nelems_run (i : ℤ) (s : St V) : nelems i s =
    if tableHdu s i then ((colAt s i >>= fun c => if c.type = .string then ok s.nrows else ok (s.nrows * c.repcount)), s)
    else (throw "incorrect FITS table access", s) := by
  unfold nelems; rw [get_bind, req_bind]
  split
  · cases colAt s i with
    | ok c => rw [lift_ok_bind, ok_bind]; split <;> rfl
    | throw m => rfl
    | ub m => rfl
  · rfl

/-- What is open: the current HDU is a table with these rows, columns and keys. -/
def CurTable (s : St V) (b : Bool) (n : ℕ) (cols : List (FCol V)) : Prop :=
  ∃ o keys, s.fptr = some o ∧ o.hdu? = some ⟨.table b n cols, keys⟩

theorem curTable_unique {s : St V} {b b' : Bool} {n n' : ℕ} {cols cols' : List (FCol V)} (h : CurTable s b n cols)
    (h' : CurTable s b' n' cols') : b = b' ∧ n = n' ∧ cols = cols' := by
  obtain ⟨o, k, h1, h2⟩ := h
  obtain ⟨o', k', h1', h2'⟩ := h'
  rw [h1] at h1'; injection h1' with e; subst e
  rw [h2] at h2'; injection h2' with e; injection e with e1 _; injection e1 with a b c
  exact ⟨a, b, c⟩

/-- A handle that knows the current table. -/
theorem synced_full {s : St V} (hs : Synced true s) {b : Bool} {n : ℕ} {cols : List (FCol V)} (ht : CurTable s b n cols) :
    s.hdutype = (if b then .bin else .ascii) ∧ s.nrows = n ∧ s.cols.length = cols.length ∧
      ∀ (k : ℕ) (i : ColInfo), s.cols[k]? = some i → ∃ c, cols[k]? = some c ∧ Describes b c i := by
  obtain ⟨o, keys, h1, h2⟩ := ht
  unfold Synced at hs
  rw [h1] at hs
  rcases hs with hs | ⟨h, hh, hk⟩
  · exact absurd hs.1 (by simp)
  · rw [h2] at hh; injection hh with e; subst e
    refine ⟨?_, hk.2.1, hk.2.2.2 rfl, hk.2.2.1⟩
    rw [hk.1]; cases b <;> rfl

theorem elems_eq {s : St V} (hg : GoodSt s) {b : Bool} {n : ℕ} {cols : List (FCol V)} (ht : CurTable s b n cols)
    {k : ℕ} {c : FCol V} {i : ColInfo} (hc : cols[k]? = some c) (hd : Describes b c i) :
    (c.cells.length : ℤ) = if i.type = .string then (n : ℤ) else n * i.repcount := by
  obtain ⟨o, keys, h1, h2⟩ := ht
  have hgc := good_cur hg h1 h2 c (List.mem_of_getElem? hc)
  have hs : i.type = .string ↔ c.ftc = .string := by
    have := hd.2.2.2
    cases hf : c.ftc <;> rw [hf] at this <;> simp [ftc2type] at this <;> simp [← this]
  rw [hgc.1]
  unfold FCol.per
  by_cases h : c.ftc = .string
  · rw [if_pos h, if_pos (hs.mpr h)]; simp
  · rw [if_neg h, if_neg (fun e => h (hs.mp e)), hd.2.2.1]
    cases b with
    | true => simp
    | false => simp [hgc.2 rfl h]

/-- **C73 (description).** After any sequence of calls on a new handle, exceptions caught, everything the handle answers about
the columns of the current HDU is true of the file.  (Excluded calls: `Tame`.) -/
theorem C73_description_partial {X : Ext V} {cut : ℤ → V → V} {disk : String → Option (List (Hdu V))} {full : Bool} {s : St V}
    (hd : ∀ f hs, disk f = some hs → GoodFile hs) (h : Hist X cut full (fresh disk) s) {col : ℤ} {i : ColInfo}
    (hi : colInfo col s = (ok i, s)) :
    ∃ b n cols c, CurTable s b n cols ∧ 1 ≤ col ∧ cols[(col - 1).toNat]? = some c ∧ Describes b c i ∧
      nrows s = (ok (n : ℤ), s) ∧ nelems col s = (ok (c.cells.length : ℤ), s) := by
  obtain ⟨hs, hg⟩ := hist_sync h (fresh_good hd) (fresh_synced full disk)
  rw [colInfo_run] at hi
  split at hi
  · rename_i htab
    injection hi with hi _
    obtain ⟨o, b, n, cols, keys, c, h1, h2, h3, h4, h5⟩ := synced_col hs hi
    refine ⟨b, n, cols, c, ⟨o, keys, h1, h2⟩, (colAt_ok hi).1, h4, h5, ?_, ?_⟩
    · unfold nrows
      rw [get_bind, req_bind, if_pos ?_, h3]
      · rfl
      · have := (colAt_ok hi).1
        unfold tableHdu at htab ⊢
        simp only [decide_eq_true_eq] at htab ⊢
        refine ⟨htab.1, by omega, by omega⟩
    · rw [nelems_run, if_pos htab, hi, ok_bind]
      have he := elems_eq hg ⟨o, keys, h1, h2⟩ h4 h5
      rw [he, h3]
      split <;> rfl
  · simp at hi

/-- **C73 (all columns).** If no call threw, the handle knows every column of the current table, and answers for exactly the
column numbers 1, …, number of columns. -/
theorem C73_columns_partial {X : Ext V} {cut : ℤ → V → V} {disk : String → Option (List (Hdu V))} {s : St V}
    (hd : ∀ f hs, disk f = some hs → GoodFile hs) (h : Hist X cut true (fresh disk) s)
    {b : Bool} {n : ℕ} {cols : List (FCol V)} (ht : CurTable s b n cols) :
    (cols ≠ [] → ncols s = (ok (cols.length : ℤ), s)) ∧
    ∀ col : ℤ, if 1 ≤ col ∧ col ≤ cols.length then ∃ i, colInfo col s = (ok i, s)
      else colInfo col s = (throw "incorrect FITS table access", s) := by
  obtain ⟨hs, hg⟩ := hist_sync h (fresh_good hd) (fresh_synced true disk)
  obtain ⟨h1, h2, h3, h4⟩ := synced_full hs ht
  have htab : ∀ col : ℤ, tableHdu s col = decide (1 ≤ col ∧ col ≤ cols.length) := by
    intro col
    unfold tableHdu
    rw [h1, h3]
    have : (0 < col) = (1 ≤ col) := propext ⟨fun h => by omega, fun h => by omega⟩
    cases b <;> simp [this]
  refine ⟨?_, ?_⟩
  · intro hne
    unfold ncols
    rw [get_bind, req_bind, if_pos, h3]
    · rfl
    · rw [htab]
      have := List.length_pos_of_ne_nil hne
      simp; omega
  · intro col
    rw [colInfo_run, htab]
    by_cases hc : 1 ≤ col ∧ col ≤ cols.length
    · rw [if_pos hc, if_pos (by simpa using hc)]
      obtain ⟨i, hi⟩ := colAt_tableHdu (s := s) (i := col) (by rw [htab]; simpa using hc)
      exact ⟨i, by rw [hi]⟩
    · rw [if_neg hc, if_neg (by simpa using hc)]

/-! ## Reading -/

theorem tdiv_tmod_start {off r : ℤ} (h0 : 0 ≤ off) (hr : 0 < r) :
    1 ≤ off.tdiv r + 1 ∧ 1 ≤ off.tmod r + 1 ∧ off.tmod r + 1 ≤ r ∧
      (off.tdiv r + 1 - 1) * r + (off.tmod r + 1 - 1) = off := by
  have h1 := Int.tdiv_nonneg h0 hr.le
  have h2 := Int.tmod_nonneg r h0
  have h3 := Int.tmod_lt_of_pos off hr
  have h4 := Int.mul_tdiv_add_tmod off r
  refine ⟨by omega, by omega, by omega, ?_⟩
  rw [add_sub_cancel_right, add_sub_cancel_right, mul_comm]
  exact h4

/-- The numeric types a column can be read as. -/
theorem colType_ftc {t : PDT} (h : colType t = true) : ∃ f, type2ftc t = ok f := by
  cases t <;> simp [colType, type2ftc] at h ⊢

theorem readColumn_synced {full : Bool} {s : St V} (hs : Synced full s) (hg : GoodSt s) {col : ℤ} {i : ColInfo}
    (hi : colInfo col s = (ok i, s)) {b : Bool} {n : ℕ} {cols : List (FCol V)} (ht : CurTable s b n cols) {c : FCol V}
    (hc : cols[(col - 1).toNat]? = some c) (hnum : c.ftc ≠ .string) (hrep : 0 < c.rep) {t : PDT} (hts : t ≠ .string)
    (htt : colType t = true) (num offset : ℕ) :
    readColumn col t num offset s =
      if offset + num ≤ c.cells.length then (ok ((c.cells.drop offset).take num), s)
      else (throw "read_column(): array too large", s) := by
  rw [colInfo_run] at hi
  split at hi
  case isFalse => simp at hi
  rename_i htab
  injection hi with hi _
  obtain ⟨o, b', n', cols', keys, c', h1, h2, h3, h4, h5⟩ := synced_col hs hi
  obtain ⟨rfl, rfl, rfl⟩ := curTable_unique ht ⟨o, keys, h1, h2⟩
  rw [hc] at h4; injection h4 with e; subst e
  have he := elems_eq hg ⟨o, keys, h1, h2⟩ hc h5
  have hst : i.type ≠ .string := by
    intro e
    have := h5.2.2.2
    rw [e] at this
    cases hf : c.ftc <;> rw [hf] at this <;> simp [ftc2type] at this
    exact hnum hf
  rw [if_neg hst] at he
  have hgc := good_cur hg h1 h2 c (List.mem_of_getElem? hc)
  have hper : (c.per : ℤ) = i.repcount := by
    unfold FCol.per; rw [if_neg hnum, h5.2.2.1]
    cases b with
    | true => simp
    | false => simp [hgc.2 rfl hnum]
  have hpos : 0 < i.repcount := by rw [← hper]; unfold FCol.per; rw [if_neg hnum]; exact_mod_cast hrep
  obtain ⟨f, hf⟩ := colType_ftc htt
  unfold readColumn
  rw [if_neg hts, if_pos htt]
  unfold readCol
  rw [get_bind, req_bind, if_pos htab, hi, lift_ok_bind, req_bind]
  by_cases hle : offset + num ≤ c.cells.length
  · rw [if_pos (by rw [h3]; simp only [decide_eq_true_eq]; rw [mul_comm]; omega), if_neg hpos.ne', hf, lift_ok_bind,
      file_bind, h1, if_pos hle]
    simp only [lift_run]
    congr 1
    unfold cfReadCol
    rw [h2]
    simp only [hc]
    obtain ⟨d1, d2, d3, d4⟩ := tdiv_tmod_start (off := (offset : ℤ)) (by omega) hpos
    by_cases hn : (num : ℤ) ≤ 0
    · rw [if_pos hn]
      have : num = 0 := by omega
      subst this; simp
    · rw [if_neg hn, if_neg (by simpa using hnum), if_neg (by rw [hper]; omega), hper, d4, if_pos (by exact_mod_cast hle)]
      simp
  · rw [if_neg (by rw [h3]; simp only [decide_eq_true_eq]; rw [mul_comm]; omega), if_neg hle]

/-- **C73 (read).** In every state reached by a history, reading `num` numbers from a column starting at element `offset`
gives exactly these elements of the file (elements of a row are consecutive, rows follow each other), for every repeat
count; a request beyond the end of the column is rejected; the state does not change. -/
theorem C73_read_partial {X : Ext V} {cut : ℤ → V → V} {disk : String → Option (List (Hdu V))} {full : Bool} {s : St V}
    (hd : ∀ f hs, disk f = some hs → GoodFile hs) (h : Hist X cut full (fresh disk) s) {col : ℤ} {i : ColInfo}
    (hi : colInfo col s = (ok i, s)) {b : Bool} {n : ℕ} {cols : List (FCol V)} (ht : CurTable s b n cols) {c : FCol V}
    (hc : cols[(col - 1).toNat]? = some c) (hnum : c.ftc ≠ .string) (hrep : 0 < c.rep) {t : PDT} (hts : t ≠ .string)
    (htt : colType t = true) (num offset : ℕ) :
    readColumn col t num offset s =
      if offset + num ≤ c.cells.length then (ok ((c.cells.drop offset).take num), s)
      else (throw "read_column(): array too large", s) := by
  obtain ⟨hs, hg⟩ := hist_sync h (fresh_good hd) (fresh_synced full disk)
  exact readColumn_synced hs hg hi ht hc hnum hrep hts htt num offset

/-- Consecutive reads of the given numbers of elements. -/
def readSeq (col : ℤ) (t : PDT) : List ℕ → ℕ → M V (List V)
  | [], _ => pure []
  | k :: ks, off => do
    let x ← readColumn col t k off
    let y ← readSeq col t ks (off + k)
    pure (x ++ y)

/-- **C73 (chunks).** Reading a column piece by piece, with pieces of any size, gives the same as reading it at once. -/
theorem C73_chunks_partial {X : Ext V} {cut : ℤ → V → V} {disk : String → Option (List (Hdu V))} {full : Bool} {s : St V}
    (hd : ∀ f hs, disk f = some hs → GoodFile hs) (h : Hist X cut full (fresh disk) s) {col : ℤ} {i : ColInfo}
    (hi : colInfo col s = (ok i, s)) {b : Bool} {n : ℕ} {cols : List (FCol V)} (ht : CurTable s b n cols) {c : FCol V}
    (hc : cols[(col - 1).toNat]? = some c) (hnum : c.ftc ≠ .string) (hrep : 0 < c.rep) {t : PDT} (hts : t ≠ .string)
    (htt : colType t = true) (sizes : List ℕ) (hsum : sizes.sum = c.cells.length) :
    readSeq col t sizes 0 s = (ok c.cells, s) := by
  have main : ∀ (ks : List ℕ) (off : ℕ), off + ks.sum = c.cells.length →
      readSeq col t ks off s = (ok (c.cells.drop off), s) := by
    intro ks
    induction ks with
    | nil => intro off ho; simp at ho; unfold readSeq; rw [pure_run, ho, List.drop_length]
    | cons k ks ih =>
      intro off ho
      rw [List.sum_cons] at ho
      unfold readSeq
      rw [bind_run, C73_read_partial hd h hi ht hc hnum hrep hts htt, if_pos (by omega)]
      simp only
      rw [bind_run, ih (off + k) (by omega)]
      simp only [pure_run]
      rw [← List.drop_drop, List.take_append_drop]
  have := main sizes 0 (by simpa using hsum)
  simpa using this

/-- **C73 (whole column).** `read_entire_column` delivers the column. -/
theorem C73_read_entire_partial {X : Ext V} {cut : ℤ → V → V} {disk : String → Option (List (Hdu V))} {full : Bool} {s : St V}
    (hd : ∀ f hs, disk f = some hs → GoodFile hs) (h : Hist X cut full (fresh disk) s) {col : ℤ} {i : ColInfo}
    (hi : colInfo col s = (ok i, s)) {b : Bool} {n : ℕ} {cols : List (FCol V)} (ht : CurTable s b n cols) {c : FCol V}
    (hc : cols[(col - 1).toNat]? = some c) (hnum : c.ftc ≠ .string) (hrep : 0 < c.rep) {t : PDT} (hts : t ≠ .string)
    (htt : colType t = true) : readEntire col t s = (ok c.cells, s) := by
  obtain ⟨b', n', cols', c', h1, h2, h3, h4, h5, h6⟩ := C73_description_partial hd h hi
  obtain ⟨rfl, rfl, rfl⟩ := curTable_unique ht h1
  rw [hc] at h3; injection h3 with e; subst e
  unfold readEntire
  rw [bind_run, h6]
  simp only
  rw [req_bind, if_pos (by simp)]
  have := C73_read_partial hd h hi ht hc hnum hrep hts htt c.cells.length 0
  rw [if_pos (by omega)] at this
  simpa using this

/-- **C73 (strings).** Strings of a binary table. -/
theorem C73_read_string_partial {X : Ext V} {cut : ℤ → V → V} {disk : String → Option (List (Hdu V))} {full : Bool} {s : St V}
    (hd : ∀ f hs, disk f = some hs → GoodFile hs) (h : Hist X cut full (fresh disk) s) {col : ℤ} {i : ColInfo}
    (hi : colInfo col s = (ok i, s)) {n : ℕ} {cols : List (FCol V)} (ht : CurTable s true n cols) {c : FCol V}
    (hc : cols[(col - 1).toNat]? = some c) (hstr : c.ftc = .string) (num offset : ℕ) :
    readColumn col .string num offset s =
      if offset + num ≤ n then (ok ((c.cells.drop offset).take num), s)
      else (throw "read_column(): array too large", s) := by
  obtain ⟨hs, hg⟩ := hist_sync h (fresh_good hd) (fresh_synced full disk)
  rw [colInfo_run] at hi
  split at hi
  case isFalse => simp at hi
  rename_i htab
  injection hi with hi _
  obtain ⟨o, b', n', cols', keys, c', h1, h2, h3, h4, h5⟩ := synced_col hs hi
  obtain ⟨rfl, rfl, rfl⟩ := curTable_unique ht ⟨o, keys, h1, h2⟩
  rw [hc] at h4; injection h4 with e; subst e
  have hgc := good_cur hg h1 h2 c (List.mem_of_getElem? hc)
  have hper : c.per = 1 := by unfold FCol.per; rw [if_pos hstr]
  have hrc : i.repcount = c.rep := by simpa using h5.2.2.1
  unfold readColumn
  rw [if_pos rfl]
  unfold readStrCol
  rw [get_bind, req_bind, if_pos htab, req_bind]
  by_cases hle : offset + num ≤ n
  · rw [if_pos (by rw [h3]; simp only [decide_eq_true_eq]; omega), hi, lift_ok_bind, req_bind,
      if_pos (by rw [hrc]; simp; omega), file_bind, h1, if_pos hle]
    simp only [h2, hc]
    rw [req_bind, if_pos (by simp [hrc]), lift_run]
    congr 1
    unfold cfReadCol
    rw [h2]
    simp only [hc]
    by_cases hn : (num : ℤ) ≤ 0
    · rw [if_pos hn]
      have : num = 0 := by omega
      subst this; simp
    · have hlen := hgc.1
      rw [hper, mul_one] at hlen
      rw [if_neg hn, if_neg (by simp [hstr]), if_neg (by rw [hper]; omega), hper, if_pos (by rw [hlen]; push_cast; omega)]
      simp
  · rw [if_neg (by rw [h3]; simp only [decide_eq_true_eq]; omega), if_neg hle]

/-- **C73 (rejection).** A column number the current HDU does not have (or any number if it is not a table) is rejected by
every method except `efficientChunkSize`, before anything is read or written. -/
theorem C73_reject {X : Ext V} {cut : ℤ → V → V} {s : St V} {col : ℤ}
    (hi : (colInfo col s).1 = throw "incorrect FITS table access") (t : PDT) (htt : colType t = true) (num off : ℤ) (ys : List V) :
    nelems col s = (throw "incorrect FITS table access", s) ∧
    readColumn col t num off s = (throw "incorrect FITS table access", s) ∧
    readEntire col t s = (throw "incorrect FITS table access", s) ∧
    writeColumn X cut col ys t off s = (throw "incorrect FITS table access", s) := by
  have htab : tableHdu s col = false := by
    rw [colInfo_run] at hi
    cases hb : tableHdu s col with
    | false => rfl
    | true =>
      rw [if_pos hb] at hi
      obtain ⟨c, hc⟩ := colAt_tableHdu hb
      rw [hc] at hi; simp at hi
  have hn : nelems col s = (throw "incorrect FITS table access", s) := by rw [nelems_run, htab]; rfl
  refine ⟨hn, ?_, ?_, ?_⟩
  · unfold readColumn
    split
    · unfold readStrCol; rw [get_bind, req_bind, htab]; rfl
    · unfold readCol; rw [get_bind, req_bind, htab]; rfl
  · unfold readEntire; rw [bind_run, hn]
  · unfold writeColumn
    split
    · unfold writeStrCol; rw [get_bind, req_bind, htab]; rfl
    · unfold writeCol; rw [get_bind, req_bind, htab]; rfl

/-- **C73 (finding).** `efficientChunkSize` tests for column 1 instead of the column asked for: any other number outside the
table is an access outside the vector. -/
theorem C73_chunk_size_unchecked {X : Ext V} {s : St V} {o : OpenFile V} (hf : s.fptr = some o) (hx : 1 ≤ X.rowsize o)
    (h1 : tableHdu s 1 = true) {i : ℤ} (hi : i < 1 ∨ s.cols.length < i) : (efficientChunkSize X i s).1.IsUB := by
  unfold efficientChunkSize
  rw [get_bind, req_bind, if_pos h1, file_bind, hf]
  simp only [req_bind]
  rw [if_pos (by simpa using hx)]
  have : colAt s i = ub "read out of bounds" := by
    unfold colAt rd
    rw [dif_neg (by omega)]
  rw [this, lift_ub_bind]
  trivial

/-! ## Writing -/

theorem overwrite_window (fill : V) (xs : List V) (k : ℕ) (ys : List V) :
    ((overwrite fill xs k ys).drop k).take ys.length = ys := by
  unfold overwrite
  have hl : ((xs ++ List.replicate (k + ys.length - xs.length) fill).take k).length = k := by
    simp; omega
  rw [List.append_assoc, List.drop_left' hl, List.take_left' rfl]

theorem overwrite_other (fill : V) (xs : List V) (k : ℕ) (ys : List V) {j : ℕ} (hj : j < xs.length)
    (ho : j < k ∨ k + ys.length ≤ j) : (overwrite fill xs k ys)[j]? = xs[j]? := by
  unfold overwrite
  have hl : ((xs ++ List.replicate (k + ys.length - xs.length) fill).take k).length = k := by
    simp; omega
  rcases ho with ho | ho
  · rw [List.append_assoc, List.getElem?_append_left (by omega), List.getElem?_take_of_lt ho, List.getElem?_append_left hj]
  · rw [List.getElem?_append_right (by simp; omega), List.getElem?_drop, List.length_append, hl,
      show k + ys.length + (j - (k + ys.length)) = j by omega, List.getElem?_append_left hj]

/-- **C73 (write).** In every state reached by a history: a write of numbers that returns puts them into the file, starting at
element `offset` of the column, for every repeat count, and changes no other element of this or another column. -/
theorem C73_write_partial {X : Ext V} {cut : ℤ → V → V} {disk : String → Option (List (Hdu V))} {full : Bool} {s s' : St V}
    (hd : ∀ f hs, disk f = some hs → GoodFile hs) (h : Hist X cut full (fresh disk) s) {col : ℤ} {t : PDT} (hts : t ≠ .string)
    {ys : List V} (hy : ys ≠ []) {offset : ℕ} (hw : writeColumn X cut col ys t offset s = (ok (), s')) :
    ∃ b n n' cols cols' c c', CurTable s b n cols ∧ CurTable s' b n' cols' ∧ n ≤ n' ∧
      cols[(col - 1).toNat]? = some c ∧ cols'[(col - 1).toNat]? = some c' ∧
      (c'.cells.drop offset).take ys.length = ys ∧
      (∀ j, j < c.cells.length → (j < offset ∨ offset + ys.length ≤ j) → c'.cells[j]? = c.cells[j]?) ∧
      (∀ (k : ℕ) (d : FCol V), k ≠ (col - 1).toNat → cols[k]? = some d →
        ∃ tl, cols'[k]? = some { d with cells := d.cells ++ tl }) ∧
      cols'.length = cols.length ∧ s'.disk = s.disk := by
  obtain ⟨hs, hg⟩ := hist_sync h (fresh_good hd) (fresh_synced full disk)
  unfold writeColumn at hw
  rw [if_neg hts] at hw
  split at hw
  case isFalse => simp [lift_run] at hw
  unfold writeCol at hw
  rw [get_bind, req_bind] at hw
  split at hw
  case isFalse => simp at hw
  rename_i htab
  obtain ⟨i, hi⟩ := colAt_tableHdu htab
  rw [hi, lift_ok_bind] at hw
  split at hw
  case isTrue => simp [lift_run] at hw
  rename_i hne
  cases hft : type2ftc t with
  | throw m => rw [hft, lift_throw_bind] at hw; simp at hw
  | ub m => rw [hft, lift_ub_bind] at hw; simp at hw
  | ok x =>
  rw [hft, lift_ok_bind] at hw
  obtain ⟨o, b, n, cols, keys, c, h1, h2, h3, h4, h5⟩ := synced_col hs hi
  unfold finishWrite at hw
  rw [file_bind, h1] at hw
  simp only at hw
  cases hcw : cfWriteCol X.fill o false col ((offset : ℤ).tdiv i.repcount + 1) ((offset : ℤ).tmod i.repcount + 1) ys with
  | throw m => rw [hcw] at hw; simp [modify_bind, lift_run] at hw
  | ub m => rw [hcw] at hw; simp [lift_run] at hw
  | ok o' =>
  rw [hcw] at hw
  simp only [setFile_bind, modify_run] at hw
  injection hw with _ hw; subst hw
  obtain ⟨b', n', cols', keys', c', g1, g2, g3, g4, g5, g6, g7, rfl⟩ := cfWriteCol_ok hy hcw
  rw [h2] at g1; injection g1 with e; injection e with e1 e2; injection e1 with e3 e4 e5
  subst e3; subst e4; subst e5; subst e2
  rw [h4] at g2; injection g2 with e; subst e
  have hnum : c.ftc ≠ .string := fun e => by simpa using g3.mpr e
  have hgc := good_cur hg h1 h2 c (List.mem_of_getElem? h4)
  have hper : (c.per : ℤ) = i.repcount := by
    unfold FCol.per; rw [if_neg hnum, h5.2.2.1]
    cases b with
    | true => simp
    | false => simp [hgc.2 rfl hnum]
  have hpos : 0 < i.repcount := by rw [← hper] at hne ⊢; omega
  obtain ⟨d1, d2, d3, d4⟩ := tdiv_tmod_start (off := (offset : ℤ)) (by omega) hpos
  rw [hper, d4, Int.toNat_natCast]
  have hcur := (hg.2 o h1).2
  set rows := max n ((offset + ys.length + c.per - 1) / c.per)
  have hext : ∀ (d : FCol V), (d.extend X.fill rows) = { d with cells := d.cells ++ List.replicate (rows * d.per - d.cells.length) X.fill } :=
    fun d => rfl
  refine ⟨b, n, rows, cols, _, c, { c with cells := overwrite X.fill (c.cells ++ List.replicate (rows * c.per - c.cells.length) X.fill) offset ys },
    ⟨o, keys, h1, h2⟩, ⟨_, keys, rfl, setHdu_hdu hcur _⟩, Nat.le_max_left _ _, h4, ?_, ?_, ?_, ?_, ?_, rfl⟩
  · rw [List.getElem?_modify, List.getElem?_map, h4]
    simp [hext]
  · exact overwrite_window _ _ _ _
  · intro j hj ho
    rw [overwrite_other _ _ _ _ (by simp; omega) ho, List.getElem?_append_left hj]
  · intro k d hk hdk
    refine ⟨List.replicate (rows * d.per - d.cells.length) X.fill, ?_⟩
    rw [List.getElem?_modify, List.getElem?_map, hdk]
    have hk' : ¬ ((col - 1).toNat = k) := fun e => hk e.symm
    simp only [hk', if_false, Option.map_some]
    rfl
  · simp

/-! ## Images -/

/-- The current HDU is an image. -/
def CurImage (s : St V) (axes : List ℕ) (pix : List V) : Prop :=
  ∃ o b keys, s.fptr = some o ∧ o.hdu? = some ⟨.image b axes pix, keys⟩

theorem synced_image {s : St V} (hs : Synced true s) {axes : List ℕ} {pix : List V} (hi : CurImage s axes pix) :
    imageHdu s = true ∧ s.axes = axes := by
  obtain ⟨o, b, keys, h1, h2⟩ := hi
  unfold Synced at hs
  rw [h1] at hs
  rcases hs with hs | ⟨h, hh, hk⟩
  · exact absurd hs.1 (by simp)
  · rw [h2] at hh; injection hh with e; subst e
    refine ⟨?_, hk.2.1⟩
    unfold imageHdu
    rw [hk.1]; rfl

/-- **C73 (image).** `read_image` delivers the pixels of a two-dimensional image, row by row. -/
theorem C73_image_partial {X : Ext V} {cut : ℤ → V → V} {disk : String → Option (List (Hdu V))} {s : St V}
    (hd : ∀ f hs, disk f = some hs → GoodFile hs) (h : Hist X cut true (fresh disk) s) {axes : List ℕ} {pix : List V}
    (hi : CurImage s axes pix) :
    axesOf s = (ok axes, s) ∧ (axes.length = 2 → readImage2 s = (ok pix, s)) ∧ (axes.length = 3 → readImage3 s = (ok pix, s)) := by
  obtain ⟨hs, hg⟩ := hist_sync h (fresh_good hd) (fresh_synced true disk)
  obtain ⟨i1, i2⟩ := synced_image hs hi
  obtain ⟨o, b, keys, h1, h2⟩ := hi
  have hgc : pix.length = prod axes := good_cur hg h1 h2
  refine ⟨?_, ?_, ?_⟩
  · unfold axesOf; rw [get_bind, req_bind, i1, i2]; rfl
  · intro hl
    obtain ⟨x, y, rfl⟩ := List.length_eq_two.mp hl
    unfold readImage2
    rw [get_bind, req_bind, i1, if_pos rfl, i2]
    simp only [file_bind, h1, lift_run]
    congr 1
    have hp : pix.length = x * y := by rw [hgc]; simp [prod]
    unfold cfReadImg
    rw [h2]
    simp only
    split
    · rename_i hz
      have : pix = [] := List.eq_nil_of_length_eq_zero (by rw [hp]; push_cast at hz; exact_mod_cast (by omega : ((x * y : ℕ) : ℤ) = 0))
      rw [this]
    · rw [if_neg (by omega), if_pos (by rw [hp]; push_cast; omega)]
      congr 1
      rw [show ((x : ℤ) * y).toNat = pix.length by rw [hp]; exact_mod_cast Int.toNat_natCast (x * y)]
      simp
  · intro hl
    obtain ⟨x, y, z, rfl⟩ := List.length_eq_three.mp hl
    unfold readImage3
    rw [get_bind, req_bind, i1, if_pos rfl, i2]
    simp only [file_bind, h1, lift_run]
    congr 1
    have hp : pix.length = x * y * z := by rw [hgc]; simp [prod, mul_assoc]
    unfold cfReadImg
    rw [h2]
    simp only
    split
    · rename_i hz
      have hz' : ((x * y * z : ℕ) : ℤ) ≤ 0 := by push_cast; exact hz
      have : pix = [] := List.eq_nil_of_length_eq_zero (by omega)
      rw [this]
    · rw [if_neg (by omega), if_pos (by rw [hp]; push_cast; omega)]
      congr 1
      rw [show ((x : ℤ) * y * z).toNat = pix.length by rw [hp]; exact_mod_cast Int.toNat_natCast (x * y * z)]
      simp

theorem subRows_ok {o : OpenFile V} {b : ℤ} {axes : List ℕ} {pix : List V} {keys : String → Option V}
    (h2 : o.hdu? = some ⟨.image b axes pix, keys⟩) (w xl yl s2 : ℕ) :
    ∀ (n m : ℕ), (∀ k < n, (xl + (m + k)) * w + yl + s2 ≤ pix.length) →
      subRows o w xl yl s2 m n = ok ((List.range n).map (fun k => (pix.drop ((xl + (m + k)) * w + yl)).take s2)) := by
  intro n
  induction n with
  | zero => intro m _; rfl
  | succ n ih =>
    intro m hm
    unfold subRows
    have hr : cfReadImg o (((xl : ℤ) + m) * w + yl + 1) s2 = ok ((pix.drop ((xl + m) * w + yl)).take s2) := by
      unfold cfReadImg
      rw [h2]
      simp only
      have h0 := hm 0 (by omega)
      rw [Nat.add_zero] at h0
      have e : ((xl : ℤ) + m) * w + yl + 1 - 1 = (((xl + m) * w + yl : ℕ) : ℤ) := by push_cast; ring
      have h1 : (0 : ℤ) ≤ (((xl + m) * w + yl : ℕ) : ℤ) := Int.natCast_nonneg _
      by_cases hs : (s2 : ℤ) ≤ 0
      · rw [if_pos hs]
        have : s2 = 0 := by omega
        subst this; simp
      · rw [if_neg hs, if_neg (by omega), e, if_pos (by exact_mod_cast h0), Int.toNat_natCast, Int.toNat_natCast]
    rw [hr, ok_bind, ih (m + 1) (fun k hk => by have := hm (k + 1) (by omega); rwa [show m + 1 + k = m + (k + 1) by omega])]
    rw [ok_bind, List.range_succ_eq_map, List.map_cons, List.map_map]
    congr 2
    apply List.map_congr_left
    intro k _
    simp only [Function.comp, Nat.succ_eq_add_one]
    rw [show m + 1 + k = m + (k + 1) by omega]

/-- **C73 (part of an image).** `read_subimage` for a rectangle inside the image: row `m` of the result are the pixels
`yl, …, yl+s2-1` of row `xl+m` of the image. -/
theorem C73_subimage_partial {X : Ext V} {cut : ℤ → V → V} {disk : String → Option (List (Hdu V))} {s : St V}
    (hd : ∀ f hs, disk f = some hs → GoodFile hs) (h : Hist X cut true (fresh disk) s) {a b : ℕ} {pix : List V}
    (hi : CurImage s [a, b] pix) (s1 s2 xl yl : ℕ) (hx : xl + s1 ≤ a) (hy : yl + s2 ≤ b) :
    readSubimage2 s1 s2 xl yl s = (ok ((List.range s1).map (fun m => (pix.drop ((xl + m) * b + yl)).take s2)), s) := by
  obtain ⟨hs, hg⟩ := hist_sync h (fresh_good hd) (fresh_synced true disk)
  obtain ⟨i1, i2⟩ := synced_image hs hi
  obtain ⟨o, bp, keys, h1, h2⟩ := hi
  have hgc : pix.length = prod [a, b] := good_cur hg h1 h2
  have hp : pix.length = a * b := by rw [hgc]; simp [prod]
  unfold readSubimage2
  rw [get_bind, req_bind, i1, if_pos rfl, i2]
  simp only [file_bind, h1, lift_run]
  rw [subRows_ok h2 b xl yl s2 s1 0 ?_]
  · simp
  · intro k hk
    rw [hp]
    have : (xl + (0 + k)) + 1 ≤ a := by omega
    have := Nat.mul_le_mul_right b this
    rw [Nat.add_mul, Nat.one_mul] at this
    omega

/-! ## What is false -/

/-- The full property: whatever succeeds in between, the handle's idea of the number of rows is the file's. -/
def C73_Full : Prop :=
  ∀ (X : Ext ℕ) (cut : ℤ → ℕ → ℕ) (ops : List (Op ℕ)) (s : St ℕ),
    ops.foldl (fun r op => match r with
      | (.ok (), s) => call X cut op s
      | r => r) ((ok (), fresh (fun _ => none)) : Res Unit × St ℕ) = (ok (), s) →
    ∀ b n cols, CurTable s b n cols → (nrows s).1 = ok (n : ℤ)

/-- A simple outside world. -/
def demoExt : Ext ℕ := ⟨fun o _ => (o.hdus.length - 1, .bin), 0, fun _ => 1⟩

/-- Two elements per row: four elements are two rows, but the handle now says four. -/
def demoOps : List (Op ℕ) :=
  [.createF "f", .bintab [⟨"x", "", 2, .float64⟩, ⟨"y", "", 1, .int32⟩], .write 1 [1, 2, 3, 4] .float64 0]

theorem C73_full_refuted : ¬ C73_Full := by
  intro h
  have := h demoExt (fun _ v => v) demoOps _ rfl true 2
    [⟨"x", "", 2, .double, [1, 2, 3, 4]⟩, ⟨"y", "", 1, .int32, [0, 0]⟩] ⟨_, _, rfl, rfl⟩
  have e : (ok (4 : ℤ) : Res ℤ) = ok 2 := this
  simp at e

/-- **C73 (finding).** After a failed move to an HDU, cfitsio may be left at another HDU than the one the handle describes; moving
there is then a no-operation, and the handle goes on describing the old HDU. -/
theorem C73_stale_after_failed_move :
    ∃ (hdus : List (Hdu ℕ)) (s s' : St ℕ), GoodFile hdus ∧
      (openFile "f" >>= fun _ => gotoHdu demoExt 3) (fresh (fun f => if f = "f" then some hdus else none)) = (throw "FITS error", s) ∧
      gotoHdu demoExt 2 s = (ok (), s') ∧ (∃ cols, CurTable s' true 1 cols ∧ cols.length = 1) ∧
      (colInfo 1 s').1 = throw "incorrect FITS table access" := by
  refine ⟨[⟨.image 8 [] [], fun _ => none⟩, ⟨.table true 1 [⟨"x", "", 1, .double, [7]⟩], fun _ => none⟩], _, _, ⟨by simp, ?_⟩, rfl, rfl,
    ⟨_, ⟨_, _, rfl, rfl⟩, rfl⟩, rfl⟩
  intro h hh
  simp only [List.mem_cons, List.not_mem_nil, or_false] at hh
  rcases hh with rfl | rfl
  · simp [GoodHdu, prod]
  · simp [GoodHdu, FCol.per]

/-- **C73 (finding).** An ASCII table with a string column cannot be created: the description is compared with cfitsio's type
code instead of `LEVELS_STRING`. -/
theorem C73_ascii_string_impossible {cols : List ColInfo} (h : ∃ c ∈ cols, c.type = .string) (s : St V) :
    (insertAsctab cols s).1 ≠ ok () := by
  intro hk
  unfold insertAsctab at hk
  rw [cleanData_bind] at hk
  cases hm : mapCols (asctabCol (V := V)) cols with
  | throw m => rw [hm, lift_throw_bind] at hk; simp at hk
  | ub m => rw [hm, lift_ub_bind] at hk; simp at hk
  | ok fc =>
    clear hk
    obtain ⟨c, hc, hs⟩ := h
    have : ∀ (is : List ColInfo) (cs : List (FCol V)), mapCols asctabCol is = ok cs → ∀ c ∈ is, c.type ≠ .string := by
      intro is
      induction is with
      | nil => intro _ _ c hc; simp at hc
      | cons i is ih =>
        intro cs h c hc
        unfold mapCols at h
        obtain ⟨x, hx, h⟩ := bind_eq_ok.mp h
        obtain ⟨xs, hxs, h⟩ := bind_eq_ok.mp h
        rcases List.mem_cons.mp hc with rfl | hc
        · exact (asctabCol_spec hx).2.2
        · exact ih xs hxs c hc
    exact this cols fc hm c hc hs

/-- **C73 (finding).** A part of an image that sticks out to the right is not rejected: the missing pixels are taken from the
beginning of the next row. -/
theorem C73_subimage_wraps :
    ∃ s : St ℕ, (openFile "f") (fresh (fun f => if f = "f" then some [⟨.image (-32) [2, 3] [1, 2, 3, 4, 5, 6], fun _ => none⟩] else none)) = (ok (), s) ∧
      readSubimage2 1 2 0 2 s = (ok [[3, 4]], s) := ⟨_, rfl, rfl⟩

/-! ## A case -/

/-- A file with a table of two columns (two and one elements per row) and three rows. -/
def demoDisk : String → Option (List (Hdu ℕ)) := fun f => if f = "t.fits" then
  some [⟨.image 8 [] [], fun _ => none⟩,
    ⟨.table true 3 [⟨"a", "", 2, .float, [1, 2, 3, 4, 5, 6]⟩, ⟨"b", "K", 1, .int32, [7, 8, 9]⟩], fun k => if k = "KEY" then some 5 else none⟩]
  else none

theorem demoDisk_good : ∀ f hs, demoDisk f = some hs → GoodFile hs := by
  intro f hs h
  unfold demoDisk at h
  split at h
  · injection h with h; subst h
    refine ⟨by simp, ?_⟩
    intro x hx
    simp only [List.mem_cons, List.not_mem_nil, or_false] at hx
    rcases hx with rfl | rfl
    · simp [GoodHdu, prod]
    · simp [GoodHdu, FCol.per]
  · simp at h

/-- Open, a rejected read, move to the table. -/
def demoState : St ℕ := (call demoExt (fun _ v => v) (.goto 2) (call demoExt (fun _ v => v) (.openF "t.fits") (fresh demoDisk)).2).2

theorem demo_hist : Hist demoExt (fun _ v => v) true (fresh demoDisk) demoState :=
  .snoc (.snoc (.nil _) (op := .openF "t.fits") (r := ok ()) rfl trivial (fun _ => rfl) trivial) (op := .goto 2) (r := ok ()) rfl trivial
    (fun _ => rfl) rfl

example : CurTable demoState true 3 [⟨"a", "", 2, .float, [1, 2, 3, 4, 5, 6]⟩, ⟨"b", "K", 1, .int32, [7, 8, 9]⟩] := ⟨_, _, rfl, rfl⟩
example : colInfo 1 demoState = (ok ⟨"a", "", 2, .float32⟩, demoState) := rfl
example : readColumn 1 .float32 3 1 demoState = (ok [2, 3, 4], demoState) := rfl
example : readColumn 1 .float32 6 1 demoState = (throw "read_column(): array too large", demoState) := rfl
example : readSeq 1 .float64 [1, 4, 0, 1] 0 demoState = (ok [1, 2, 3, 4, 5, 6], demoState) := rfl
example : (colInfo 3 demoState).1 = throw "incorrect FITS table access" := rfl
example : (colInfo 0 demoState).1 = throw "incorrect FITS table access" := rfl
example : (efficientChunkSize demoExt 3 demoState).1 = ub "read out of bounds" := rfl
example : (keyPresent "KEY" demoState).1 = ok true := rfl

end Verif.Fh
