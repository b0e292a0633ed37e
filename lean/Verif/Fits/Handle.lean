import Verif.Base.Res
import Mathlib.Data.List.Basic
import Mathlib.Tactic.Ring
import Mathlib.Tactic.Linarith

/-!
# The FITS file handle

Model of `levels/cxxsupport/fitshandle.cc` and `ls_fitshandle.h`.  A program holds one handle; a file is a list of header and
data units (HDUs).  cfitsio is modelled by its documented contract (`cf…` below); an element of a column, a pixel and the value
of a key are of the same unspecified type `V`: conversions between the stored type and the type in memory are left to the
users of the model.  An open file lives in the handle and goes to the disk when it is closed.  cfitsio's extended file name
syntax, `delete_file`, `add_comment`, `write_checksum`, `get_all_keys` and `assert_pdmtype` are not modelled; 64 bit overflow
is not modelled.

Methods keep the state they leave behind when they throw: `M α = State → Res α × State`.
-/

namespace Verif.Fh
open Verif Res

/-- `enum PDT`, levels/cxxsupport/ls_datatypes.h:102-115. -/
inductive PDT
  | int8 | uint8 | int16 | uint16 | int32 | uint32 | int64 | uint64 | float32 | float64 | bool | string | invalid
  deriving DecidableEq, Repr

/-- The type of a column in the file (cfitsio's type codes; `other` are those without a case in `ftc2type`). -/
inductive FTC
  | logical | byte | short | int32 | longlong | float | double | string | other
  deriving DecidableEq, Repr

/-- `ftc2type`, fitshandle.cc:62-76. -/
def ftc2type : FTC → Res PDT
  | .logical => ok .bool
  | .byte => ok .int8
  | .short => ok .int16
  | .int32 => ok .int32
  | .longlong => ok .int64
  | .float => ok .float32
  | .double => ok .float64
  | .string => ok .string
  | .other => throw "unsupported component type"

/-- `type2ftc`, fitshandle.cc:80-95. -/
def type2ftc : PDT → Res FTC
  | .bool => ok .logical
  | .int8 | .uint8 => ok .byte
  | .int16 => ok .short
  | .int32 => ok .int32
  | .int64 => ok .longlong
  | .float32 => ok .float
  | .float64 => ok .double
  | .string => ok .string
  | _ => throw "unsupported component type"

/-- `type2fitschar`, fitshandle.cc:97-113; the letter is represented by the type it stands for. -/
def type2fitschar : PDT → Res FTC
  | .bool => ok .logical
  | .float32 => ok .float
  | .float64 => ok .double
  | .int8 | .uint8 => ok .byte
  | .int16 => ok .short
  | .int32 => ok .int32
  | .int64 => ok .longlong
  | .string => ok .string
  | _ => throw "unknown data type"

/-- `type2asciiform`, fitshandle.cc:115-129; the form is represented by the type cfitsio reads it back as
(`I3`, `I4` and `I6` as `TSHORT`, `I11` as `TINT32BIT`… is not relied on). -/
def type2asciiform : PDT → Res FTC
  | .float32 => ok .float
  | .float64 => ok .double
  | .uint8 | .int8 | .int16 => ok .short
  | .int32 => ok .int32
  | .int64 => ok .longlong
  | _ => throw "unknown data type"

/-- `type2bitpix`, fitshandle.cc:50-58. -/
def type2bitpix : PDT → Res ℤ
  | .float32 => ok (-32)
  | .float64 => ok (-64)
  | _ => throw "unsupported component type"

/-! ## Files -/

/-- A column of a table: `rep` elements per row (for a string column: the width of the string, one string per row). -/
structure FCol (V : Type) where
  name : String
  unit : String
  rep : ℕ
  ftc : FTC
  cells : List V

/-- The data of an HDU. -/
inductive Body (V : Type)
  | image (bitpix : ℤ) (axes : List ℕ) (pix : List V)
  | table (bin : Bool) (nrows : ℕ) (cols : List (FCol V))
  | other

/-- An HDU: data and the keys of the header. -/
structure Hdu (V : Type) where
  body : Body V
  keys : String → Option V

/-- cfitsio's HDU types as stored in `hdutype_` (`INVALID = -4711`). -/
inductive HType
  | invalid | image | ascii | bin | other
  deriving DecidableEq, Repr

def Body.htype {V : Type} : Body V → HType
  | .image .. => .image
  | .table true .. => .bin
  | .table false .. => .ascii
  | .other => .other

/-- `class fitscolumn`, ls_fitshandle.h:45-70. -/
structure ColInfo where
  name : String
  unit : String
  repcount : ℤ
  type : PDT
  deriving DecidableEq

/-- An open `fitsfile`: name, contents, current HDU (counted from 0), opened for writing. -/
structure OpenFile (V : Type) where
  name : String
  hdus : List (Hdu V)
  cur : ℕ
  rw : Bool

/-- The members of `fitshandle`, ls_fitshandle.h:75-82 (`status` is 0 between calls; `bitpix_` is not used), and the disk. -/
structure St (V : Type) where
  disk : String → Option (List (Hdu V))
  fptr : Option (OpenFile V)
  hdutype : HType
  axes : List ℕ
  cols : List ColInfo
  nrows : ℤ

/-- A C++ method: the result and the state left behind. -/
def M (V : Type) (α : Type) : Type := St V → Res α × St V

variable {V : Type}

instance : Monad (M V) where
  pure a := fun s => (ok a, s)
  bind x f := fun s => match x s with
    | (.ok a, s') => f a s'
    | (.throw m, s') => (.throw m, s')
    | (.ub w, s') => (.ub w, s')

/-- An expression that does not change the state. -/
def lift {α : Type} (r : Res α) : M V α := fun s => (r, s)
/-- The current state. -/
def get : M V (St V) := fun s => (ok s, s)
/-- Assignment. -/
def modify (f : St V → St V) : M V Unit := fun s => (ok (), f s)
/-- `levels_assert`. -/
def req (b : Bool) (msg : String) : M V Unit := fun s => if b then (ok (), s) else (.throw msg, s)

/-! ## cfitsio

What the library does with the current HDU of an open file. -/

/-- The unspecified behaviour of the outside: what a failed move leaves behind (position and the HDU type written to the
caller's variable), the fill value of new rows, and the recommended number of rows per access. -/
structure Ext (V : Type) where
  lost : OpenFile V → ℤ → ℕ × HType
  fill : V
  rowsize : OpenFile V → ℤ

/-- The current HDU. -/
def OpenFile.hdu? (o : OpenFile V) : Option (Hdu V) := o.hdus[o.cur]?

/-- Replace the current HDU. -/
def OpenFile.setHdu (o : OpenFile V) (h : Hdu V) : OpenFile V := { o with hdus := o.hdus.set o.cur h }

/-- Elements per row as cfitsio counts them in `frow`, `felem` (strings count as one element). -/
def FCol.per (c : FCol V) : ℕ := if c.ftc = .string then 1 else c.rep

/-- `fits_read_col(fptr, type, colnum, frow, felem, n, …)`: `n` consecutive elements starting at element `felem` of row
`frow`, all counted from 1.  A number may not be read from a string column, nor a string from a numeric one
(simplification). -/
def cfReadCol (o : OpenFile V) (asStr : Bool) (colnum frow felem n : ℤ) : Res (List V) :=
  match o.hdu? with
  | some ⟨.table _ _ cols, _⟩ =>
    match cols[(colnum - 1).toNat]? with
    | some c =>
      if n ≤ 0 then ok []
      else if asStr ≠ (c.ftc = .string : Bool) then throw "FITS error"
      else if frow < 1 ∨ felem < 1 ∨ (c.per : ℤ) < felem then throw "FITS error"
      else
        let start := (frow - 1) * c.per + (felem - 1)
        if start + n ≤ c.cells.length then ok ((c.cells.drop start.toNat).take n.toNat)
        else throw "FITS error"
    | none => throw "FITS error"
  | _ => throw "FITS error"

/-- Overwrite `xs` from position `k` on; `fill` pads. -/
def overwrite (fill : V) (xs : List V) (k : ℕ) (ys : List V) : List V :=
  let padded := xs ++ List.replicate (k + ys.length - xs.length) fill
  padded.take k ++ ys ++ padded.drop (k + ys.length)

/-- Extend a column to `n` rows. -/
def FCol.extend (fill : V) (n : ℕ) (c : FCol V) : FCol V :=
  { c with cells := c.cells ++ List.replicate (n * c.per - c.cells.length) fill }

/-- `fits_write_col`: like `fits_read_col`; the table grows to hold the last element written. -/
def cfWriteCol (fill : V) (o : OpenFile V) (asStr : Bool) (colnum frow felem : ℤ) (ys : List V) : Res (OpenFile V) :=
  match o.hdu? with
  | some ⟨.table b nrows cols, keys⟩ =>
    match cols[(colnum - 1).toNat]? with
    | some c =>
      if o.rw = false then throw "FITS error"
      else if ys.length = 0 then ok o
      else if asStr ≠ (c.ftc = .string : Bool) then throw "FITS error"
      else if frow < 1 ∨ felem < 1 ∨ (c.per : ℤ) < felem then throw "FITS error"
      else
        let start := ((frow - 1) * c.per + (felem - 1)).toNat
        let rows := max nrows ((start + ys.length + c.per - 1) / c.per)
        let cols' := (cols.map (FCol.extend fill rows)).modify (colnum - 1).toNat
          (fun c => { c with cells := overwrite fill c.cells start ys })
        ok (o.setHdu ⟨.table b rows cols', keys⟩)
    | none => throw "FITS error"
  | _ => throw "FITS error"

/-- `fits_insert_btbl`, `fits_insert_atbl`, `fits_insert_imgll`: a new HDU after the current one, which becomes the current
one. -/
def cfInsert (o : OpenFile V) (b : Body V) : Res (OpenFile V) :=
  if o.rw = false then throw "FITS error"
  else ok { o with hdus := o.hdus.take (o.cur + 1) ++ ⟨b, fun _ => none⟩ :: o.hdus.drop (o.cur + 1), cur := o.cur + 1 }

/-- `fits_read_img(fptr, type, first, n, …)`: `n` consecutive pixels from pixel `first` (counted from 1) on. -/
def cfReadImg (o : OpenFile V) (first n : ℤ) : Res (List V) :=
  match o.hdu? with
  | some ⟨.image _ _ pix, _⟩ =>
    if n ≤ 0 then ok []
    else if first < 1 then throw "FITS error"
    else if first - 1 + n ≤ pix.length then ok ((pix.drop (first - 1).toNat).take n.toNat)
    else throw "FITS error"
  | _ => throw "FITS error"

/-- `fits_write_img`. -/
def cfWriteImg (o : OpenFile V) (first : ℤ) (ys : List V) : Res (OpenFile V) :=
  match o.hdu? with
  | some ⟨.image b ax pix, keys⟩ =>
    if o.rw = false then throw "FITS error"
    else if ys.length = 0 then ok o
    else if first < 1 then throw "FITS error"
    else if first - 1 + ys.length ≤ pix.length then
      ok (o.setHdu ⟨.image b ax (pix.take (first - 1).toNat ++ ys ++ pix.drop ((first - 1).toNat + ys.length)), keys⟩)
    else throw "FITS error"
  | _ => throw "FITS error"

/-! ## Methods -/

/-- `clean_data`, fitshandle.cc:169-177. -/
def cleanData : M V Unit := modify fun s =>
  match s.fptr with
  | none => s
  | some _ => { s with axes := [], cols := [], hdutype := .invalid, nrows := 0 }

/-- `clean_all`, fitshandle.cc:179-186 (also `close()` and the destructor): closing is assumed to succeed; a file opened for
writing is then on the disk. -/
def cleanAll : M V Unit := do
  cleanData
  modify fun s => match s.fptr with
    | none => s
    | some o => { s with
        fptr := none
        disk := if o.rw then (fun f => if f = o.name then some o.hdus else s.disk f) else s.disk }

/-- `table_hdu(tsize col)`, fitshandle.cc:188-193: a negative `int` argument becomes huge. -/
def tableHdu (s : St V) (col : ℤ) : Bool :=
  (s.hdutype = .ascii ∨ s.hdutype = .bin) ∧ 0 < col ∧ col ≤ s.cols.length

/-- `image_hdu`, fitshandle.cc:194-195. -/
def imageHdu (s : St V) : Bool := s.hdutype = .image

/-- `connected`, ls_fitshandle.h:89. -/
def connected (s : St V) : Bool := s.hdutype ≠ .invalid

/-- The loops over the columns, fitshandle.cc:216-223 (`ascii`: repeat count 1) and :234-241: columns are appended until one
has an unsupported type. -/
def pushCols (bin : Bool) : List (FCol V) → M V Unit
  | [] => pure ()
  | c :: rest => do
    let t ← lift (ftc2type c.ftc)
    modify fun s => { s with cols := s.cols ++ [⟨c.name, c.unit, if bin then (c.rep : ℤ) else 1, t⟩] }
    pushCols bin rest

/-- `init_data` with `init_image`, `init_asciitab`, `init_bintab`, fitshandle.cc:197-262. -/
def initData : M V Unit := do
  cleanData
  let s ← get
  match s.fptr with
  | none => lift (ub "null fitsfile")
  | some o => match o.hdu? with
    | none => lift (throw "FITS error")
    | some h =>
      modify fun s => { s with hdutype := h.body.htype }
      match h.body with
      | .image _ axes _ => modify fun s => { s with axes := axes }
      | .table b n cols => do
        modify fun s => { s with nrows := n }
        pushCols b cols
      | .other => lift (throw "init_data(): unsupported HDU type")

/-- The open file, or undefined behaviour (cfitsio dereferences the null pointer). -/
def file : M V (OpenFile V) := do
  let s ← get
  match s.fptr with
  | some o => pure o
  | none => lift (ub "null fitsfile")

def setFile (o : OpenFile V) : M V Unit := modify fun s => { s with fptr := some o }

/-- `open`, fitshandle.cc:303-316: the name is copied to a buffer of `FLEN_FILENAME = 1025` characters.  The file is opened
for reading only. -/
def openFile (fname : String) : M V Unit := do
  cleanAll
  if 1025 ≤ fname.length then lift (ub "file name buffer overflow")
  else do
    let s ← get
    match s.disk fname with
    | none => lift (throw "FITS error")
    | some hdus => do
      setFile ⟨fname, hdus, 0, false⟩
      initData

/-- `create`, fitshandle.cc:318-328: an existing file is an error; the new file has an empty primary HDU. -/
def create (fname : String) : M V Unit := do
  cleanAll
  let s ← get
  match s.disk fname with
  | some _ => lift (throw "FITS error")
  | none => do
    setFile ⟨fname, [⟨.image 8 [] [], fun _ => none⟩], 0, true⟩
    initData

/-- `goto_hdu`, fitshandle.cc:357-367; HDUs are counted from 1. -/
def gotoHdu (X : Ext V) (hdu : ℤ) : M V Unit := do
  let o ← file
  if (o.cur : ℤ) + 1 ≠ hdu then
    if 1 ≤ hdu ∧ hdu ≤ o.hdus.length then do
      setFile { o with cur := (hdu - 1).toNat }
      initData
    else do
      modify fun s => { s with fptr := some { o with cur := (X.lost o hdu).1 }, hdutype := (X.lost o hdu).2 }
      lift (throw "FITS error")
  else pure ()

/-- `num_hdus`, fitshandle.cc:369-375. -/
def numHdus : M V ℤ := do
  let o ← file
  pure o.hdus.length

/-- One column description of `insert_bintab`, fitshandle.cc:386-391: name and unit are copied to buffers of 81 characters. -/
def bintabCol (c : ColInfo) : Res (FCol V) :=
  if 81 ≤ c.name.length ∨ 81 ≤ c.unit.length then ub "column name buffer overflow"
  else do
    let t ← type2fitschar c.type
    if c.repcount < 0 then throw "FITS error" else ok ⟨c.name, c.unit, c.repcount.toNat, t, []⟩

/-- All column descriptions. -/
def mapCols (f : ColInfo → Res (FCol V)) : List ColInfo → Res (List (FCol V))
  | [] => ok []
  | c :: cs => do
    let x ← f c
    let xs ← mapCols f cs
    ok (x :: xs)

/-- `insert_bintab`, fitshandle.cc:377-397 (`nrows_` is 0 after `clean_data`; the extension name is not modelled). -/
def insertBintab (cols : List ColInfo) : M V Unit := do
  cleanData
  let fc ← lift (mapCols bintabCol cols)
  let o ← file
  let o' ← lift (cfInsert o (.table true 0 fc))
  setFile o'
  initData

/-- One column description of `insert_asctab`, fitshandle.cc:408-420.  `cols[m].type()!=TSTRING` compares a `PDT` (0…11, -1)
with cfitsio's constant 16 and is always true. -/
def asctabCol (c : ColInfo) : Res (FCol V) :=
  if 81 ≤ c.name.length ∨ 81 ≤ c.unit.length then ub "column name buffer overflow"
  else if c.repcount ≠ 1 then throw "bad repcount for ASCII table"
  else do
    let t ← type2asciiform c.type
    ok ⟨c.name, c.unit, 1, t, []⟩

/-- `insert_asctab`, fitshandle.cc:399-425. -/
def insertAsctab (cols : List ColInfo) : M V Unit := do
  cleanData
  let fc ← lift (mapCols asctabCol cols)
  let o ← file
  let o' ← lift (cfInsert o (.table false 0 fc))
  setFile o'
  initData

/-- Number of pixels (no axes: no data). -/
def prod (axes : List ℕ) : ℕ := if axes = [] then 0 else axes.foldr (· * ·) 1

/-- `insert_image(type, Axes)`, fitshandle.cc:427-435. -/
def insertImage (X : Ext V) (t : PDT) (axes : List ℕ) : M V Unit := do
  cleanData
  let b ← lift (type2bitpix t)
  let o ← file
  let o' ← lift (cfInsert o (.image b axes (List.replicate (prod axes) X.fill)))
  setFile o'
  initData

/-- `columns_[i-1]`, undefined outside the vector. -/
def colAt (s : St V) (i : ℤ) : Res ColInfo := rd s.cols (i - 1)

/-- The accessors `colname`, `colunit`, `repcount`, `coltype` (fitshandle.cc:467-486): the description of column `i`. -/
def colInfo (i : ℤ) : M V ColInfo := do
  let s ← get
  req (tableHdu s i) "incorrect FITS table access"
  lift (colAt s i)

/-- `ncols`, fitshandle.cc:487-491. -/
def ncols : M V ℤ := do
  let s ← get
  req (tableHdu s 1) "incorrect FITS table access"
  pure s.cols.length

/-- `nrows`, fitshandle.cc:492-496. -/
def nrows : M V ℤ := do
  let s ← get
  req (tableHdu s 1) "incorrect FITS table access"
  pure s.nrows

/-- `nelems`, fitshandle.cc:497-502. -/
def nelems (i : ℤ) : M V ℤ := do
  let s ← get
  req (tableHdu s i) "incorrect FITS table access"
  let c ← lift (colAt s i)
  if c.type = .string then pure s.nrows else pure (s.nrows * c.repcount)

/-- `efficientChunkSize`, fitshandle.cc:503-511: asserts that the HDU has a column 1, not a column `i`. -/
def efficientChunkSize (X : Ext V) (i : ℤ) : M V ℤ := do
  let s ← get
  req (tableHdu s 1) "incorrect FITS table access"
  let o ← file
  req (1 ≤ X.rowsize o) "bad recommended FITS chunk size"
  let c ← lift (colAt s i)
  pure (X.rowsize o * c.repcount)

/-- `axes`, fitshandle.cc:462-466. -/
def axesOf : M V (List ℕ) := do
  let s ← get
  req (imageHdu s) "not connected to an image"
  pure s.axes

/-- `read_col`, fitshandle.cc:264-275 (numeric types); C++ `/` and `%` truncate, a zero divisor is undefined. -/
def readCol (colnum ndata : ℤ) (t : PDT) (offset : ℤ) : M V (List V) := do
  let s ← get
  req (tableHdu s colnum) "incorrect FITS table access"
  let c ← lift (colAt s colnum)
  req (ndata ≤ c.repcount * s.nrows - offset) "read_column(): array too large"
  if c.repcount = 0 then lift (ub "division by zero")
  else do
    let frow := offset.tdiv c.repcount + 1
    let felem := offset.tmod c.repcount + 1
    let _ ← lift (type2ftc t)
    let o ← file
    lift (cfReadCol o false colnum frow felem ndata)

/-- The part of `read_column_raw_void` for strings, fitshandle.cc:662-679. -/
def readStrCol (colnum num offset : ℤ) : M V (List V) := do
  let s ← get
  req (tableHdu s colnum) "incorrect FITS table access"
  req (num ≤ s.nrows - offset) "read_column(): array too large"
  let c ← lift (colAt s colnum)
  req (0 ≤ num ∧ 0 ≤ c.repcount + 1) "safe_cast: cast of negative value to unsigned type"
  let o ← file
  match o.hdu? with
  | some ⟨.table _ _ fc, _⟩ => match fc[(colnum - 1).toNat]? with
    | some f => do
      req ((f.rep : ℤ) ≤ c.repcount) "column too wide"
      lift (cfReadCol o true colnum (offset + 1) 1 num)
    | none => lift (throw "FITS error")
  | _ => lift (throw "FITS error")

/-- The types accepted by the column methods, fitshandle.cc:651-661, 683-686. -/
def colType : PDT → Bool
  | .uint16 | .uint32 | .uint64 | .invalid => false
  | _ => true

/-- `read_column_raw_void`, fitshandle.cc:646-687. -/
def readColumn (colnum : ℤ) (t : PDT) (num offset : ℤ) : M V (List V) :=
  if t = .string then readStrCol colnum num offset
  else if colType t then readCol colnum num t offset
  else lift (throw "unsupported data type in read_column_raw_void()")

/-- `read_entire_column`, ls_fitshandle.h:229-234. -/
def readEntire (colnum : ℤ) (t : PDT) : M V (List V) := do
  let n ← nelems colnum
  req (0 ≤ n) "safe_cast: cast of negative value to unsigned type"
  readColumn colnum t n 0

/-- A cfitsio call that changes the file, followed by `nrows_ = max(nrows_, offset+ndata)` and `check_errors`
(fitshandle.cc:283-286 and :711-714): the assignment happens even if the call fails. -/
def finishWrite (r : OpenFile V → Res (OpenFile V)) (upto : ℤ) : M V Unit := do
  let o ← file
  match r o with
  | .ok o' => do
    setFile o'
    modify fun s => { s with nrows := max s.nrows upto }
  | .throw m => do
    modify fun s => { s with nrows := max s.nrows upto }
    lift (.throw m)
  | .ub w => lift (.ub w)

/-- `write_col`, fitshandle.cc:276-287. -/
def writeCol (X : Ext V) (colnum : ℤ) (ys : List V) (t : PDT) (offset : ℤ) : M V Unit := do
  let s ← get
  req (tableHdu s colnum) "incorrect FITS table access"
  let c ← lift (colAt s colnum)
  if c.repcount = 0 then lift (ub "division by zero")
  else do
    let frow := offset.tdiv c.repcount + 1
    let felem := offset.tmod c.repcount + 1
    let _ ← lift (type2ftc t)
    finishWrite (fun o => cfWriteCol X.fill o false colnum frow felem ys) (offset + ys.length)

/-- The part of `write_column_raw_void` for strings, fitshandle.cc:703-716; strings are truncated to the width of the column
by `cut`. -/
def writeStrCol (X : Ext V) (cut : ℤ → V → V) (colnum : ℤ) (ys : List V) (offset : ℤ) : M V Unit := do
  let s ← get
  req (tableHdu s colnum) "incorrect FITS table access"
  let c ← lift (colAt s colnum)
  req (0 ≤ c.repcount + 1) "safe_cast: cast of negative value to unsigned type"
  finishWrite (fun o => cfWriteCol X.fill o true colnum (offset + 1) 1 (ys.map (cut c.repcount))) (offset + ys.length)

/-- `write_column_raw_void`, fitshandle.cc:689-721. -/
def writeColumn (X : Ext V) (cut : ℤ → V → V) (colnum : ℤ) (ys : List V) (t : PDT) (offset : ℤ) : M V Unit :=
  if t = .string then writeStrCol X cut colnum ys offset
  else if colType t then writeCol X colnum ys t offset
  else lift (throw "unsupported data type in write_column_raw_void()")

/-- The types accepted by the key methods, fitshandle.cc:545-577 and :582-617. -/
def keyType : PDT → Bool := colType

/-- `get_key_void`, fitshandle.cc:582-619 with `getKeyHelper`, :289-298. -/
def getKey (name : String) (t : PDT) : M V V := do
  let s ← get
  req (connected s) "handle not connected to a file"
  if keyType t then do
    let o ← file
    match o.hdu?.bind (fun h => h.keys name) with
    | some v => pure v
    | none => lift (throw "fitshandle::get_key(): key not found")
  else lift (throw "unsupported data type in get_key_void()")

/-- `key_present`, fitshandle.cc:635-644. -/
def keyPresent (name : String) : M V Bool := do
  let s ← get
  req (connected s) "handle not connected to a file"
  let o ← file
  pure (o.hdu?.bind (fun h => h.keys name)).isSome

/-- `set_key_void`, fitshandle.cc:540-580 (`fixkey` and comments are not modelled: a key is found under the name it was
set with). -/
def setKey (name : String) (v : V) (t : PDT) : M V Unit := do
  let s ← get
  req (connected s) "handle not connected to a file"
  if keyType t then do
    let o ← file
    match o.hdu? with
    | some h =>
      if o.rw then setFile (o.setHdu { h with keys := fun k => if k = name then some v else h.keys k })
      else lift (throw "FITS error")
    | none => lift (throw "FITS error")
  else lift (throw "unsupported data type in set_key_void()")

/-- `delete_key`, fitshandle.cc:621-626. -/
def deleteKey (name : String) : M V Unit := do
  let s ← get
  req (connected s) "handle not connected to a file"
  let o ← file
  match o.hdu? with
  | some h =>
    if o.rw ∧ (h.keys name).isSome then
      setFile (o.setHdu { h with keys := fun k => if k = name then none else h.keys k })
    else lift (throw "FITS error")
  | none => lift (throw "FITS error")

/-- `read_image(arr2)`, fitshandle.cc:743-751: row-major; an empty array makes `&data[0][0]` a null reference, which cfitsio
does not use. -/
def readImage2 : M V (List V) := do
  let s ← get
  req (imageHdu s) "not connected to an image"
  match s.axes with
  | [a, b] => do
    let o ← file
    lift (cfReadImg o 1 (a * b))
  | _ => lift (throw "wrong number of dimensions")

/-- `read_image(arr3)`, fitshandle.cc:756-765. -/
def readImage3 : M V (List V) := do
  let s ← get
  req (imageHdu s) "not connected to an image"
  match s.axes with
  | [a, b, c] => do
    let o ← file
    lift (cfReadImg o 1 (a * b * c))
  | _ => lift (throw "wrong number of dimensions")

/-- Rows `m, …, m+n-1` of `read_subimage`, fitshandle.cc:775-777 (`(xl+m)*axes_[1]+yl+1`; after an error cfitsio does
nothing and the error is reported after the loop). -/
def subRows (o : OpenFile V) (ax1 : ℕ) (xl yl : ℤ) (s2 : ℕ) : ℕ → ℕ → Res (List (List V))
  | _, 0 => ok []
  | m, n + 1 => do
    let r ← cfReadImg o ((xl + m) * ax1 + yl + 1) s2
    let rs ← subRows o ax1 xl yl s2 (m + 1) n
    ok (r :: rs)

/-- `read_subimage(arr2 &data, xl, yl)`, fitshandle.cc:770-779, for an array of `s1` times `s2` elements. -/
def readSubimage2 (s1 s2 : ℕ) (xl yl : ℤ) : M V (List (List V)) := do
  let s ← get
  req (imageHdu s) "not connected to an image"
  match s.axes with
  | [_, b] => do
    let o ← file
    lift (subRows o b xl yl s2 0 s1)
  | _ => lift (throw "wrong number of dimensions")

/-- `read_subimage(arr &data, offset)`, fitshandle.cc:786-792. -/
def readSubimage (n : ℕ) (t : PDT) (offset : ℤ) : M V (List V) := do
  let s ← get
  req (imageHdu s) "not connected to an image"
  let _ ← lift (type2ftc t)
  let o ← file
  lift (cfReadImg o (1 + offset) n)

/-- `write_image(arr2)`, fitshandle.cc:723-734, for an array of `s1` times `s2` elements with contents `ys`. -/
def writeImage2 (ys : List V) (t : PDT) (s1 s2 : ℕ) : M V Unit := do
  let s ← get
  req (imageHdu s) "not connected to an image"
  match s.axes with
  | [a, b] => do
    req (a = s1) "wrong size of dimension 1"
    req (b = s2) "wrong size of dimension 2"
    let _ ← lift (type2ftc t)
    let o ← file
    let o' ← lift (cfWriteImg o 1 (ys.take (a * b)))
    setFile o'
  | _ => lift (throw "wrong number of dimensions")

/-- `write_subimage`, fitshandle.cc:736-742. -/
def writeSubimage (ys : List V) (t : PDT) (offset : ℤ) : M V Unit := do
  let s ← get
  req (imageHdu s) "not connected to an image"
  let _ ← lift (type2ftc t)
  let o ← file
  let o' ← lift (cfWriteImg o (1 + offset) ys)
  setFile o'

/-- The constructor, fitshandle.cc:300-301. -/
def fresh (disk : String → Option (List (Hdu V))) : St V := ⟨disk, none, .invalid, [], [], 0⟩

end Verif.Fh
