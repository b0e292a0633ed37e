import Verif.Api.Objects
import Verif.Index.Fits
import Verif.Tod.Spmd

/-!
# Reading beam and sky on many ranks: model

`beam::read` and `sky::read` (src/conviqt_io.cpp:11-80, 102-177), `get_almsize`, `get_almsize_pol`, `read_Alm_from_fits`
with a file name (levels/Healpix_cxx/alm_fitsio.cc:73-93, 136-144, ls_alm_fitsio.h:75-83).

A rank returns the new state of the object and the exception it leaves the call with, if any.  Every rank has its own
view of the file system.  cfitsio is not modelled: a file is the list of its binary tables (HDU 2, 3, …), and everything
that makes cfitsio fail (missing file, HDU, or column) is a missing entry.  `int` overflow is treated in
`Index/Overflow.lean`.
-/

namespace Verif.Obj
open Verif Res Verif.Harm Verif.Fits Verif.Spmd

/-- The files a rank can open: the binary tables starting at HDU 2. -/
abbrev Files := String → Option (List (Table ℂ))

/-- `fitshandle::open` and `goto_hdu`, levels/cxxsupport/fitshandle.cc:303-316, 357-367.  The name is copied to a buffer of
`FLEN_FILENAME = 1025` characters without a check. -/
def openHdu (fs : Files) (file : String) (hdu : ℕ) : Res (Table ℂ) :=
  if 1025 ≤ file.length then ub "file name buffer overflow"
  else match fs file with
    | none => throw "could not open the named file"
    | some ts => match ts[hdu - 2]? with
      | none => throw "tried to move past end of file"
      | some t => ok t

/-- `get_almsize(filename, lmax, mmax)`, alm_fitsio.cc:73-79 (default HDU 2). -/
def almSize (fs : Files) (file : String) : Res (ℤ × ℤ) := do
  let t ← openHdu fs file 2
  getAlmSize t

/-- `get_almsize_pol`, alm_fitsio.cc:81-94. -/
def almSizePol (fs : Files) (file : String) : Res (ℤ × ℤ) :=
  foldRes (fun s hdu => do
    let t ← openHdu fs file hdu
    let r ← getAlmSize t
    ok (if r.1 > s.1 then r.1 else s.1, if r.2 > s.2 then r.2 else s.2)) (0, 0) [2, 3, 4]

/-- What rank 0 does to find the limits, src/conviqt_io.cpp:24-30 and :117-123. -/
def fileSize (pol : Bool) (fs : Files) (file : String) : Res (ℤ × ℤ) :=
  if pol then almSizePol fs file else almSize fs file

/-- `read_Alm_from_fits(filename, alms, lmax, mmax, hdunum)`, alm_fitsio.cc:136-144; `chunk` is the chunk size cfitsio
recommends. -/
noncomputable def readHdu (fs : Files) (chunk : ℕ) (file : String) (l m : ℤ) (hdu : ℕ) : Res (Alm ℂ) := do
  let t ← openHdu fs file hdu
  readAlm 0 t.rows chunk l m

/-- The three components of an object. -/
structure Comps where
  T : Alm ℂ
  G : Alm ℂ
  C : Alm ℂ

/-- What rank 0 does to read the coefficients, src/conviqt_io.cpp:62-67 and :152-157. -/
noncomputable def readComps (pol : Bool) (fs : Files) (chunk : ℕ) (file : String) (l m : ℤ) (c : Comps) : Res Comps :=
  if pol then do
    let T ← readHdu fs chunk file l m 2
    let G ← readHdu fs chunk file l m 3
    let C ← readHdu fs chunk file l m 4
    ok ⟨T, G, C⟩
  else do
    let T ← readHdu fs chunk file l m 2
    ok { c with T := T }

/-- `Alm::Set(lmax, mmax)`, levels/Healpix_cxx/ls_alm.h:101-105: new state and exception.  The contents are indeterminate
(`junk`).  A negative size becomes a huge unsigned one, whose allocation fails. -/
def setAlm (junk : ℕ → ℂ) (old : Alm ℂ) (l m : ℤ) : Alm ℂ × Option String :=
  match numAlms l m with
  | .ok n => if n < 0 then (⟨l, m, []⟩, some "bad_alloc") else (⟨l, m, (List.range n.toNat).map junk⟩, none)
  | _ => ({ old with lmax := l, mmax := m }, some "mmax must not be larger than lmax")

/-- src/conviqt_io.cpp:54-58 and :144-148. -/
def setComps (pol : Bool) (junk : ℕ → ℂ) (c : Comps) (l m : ℤ) : Comps × Option String :=
  match setAlm junk c.T l m with
  | (T, some e) => ({ c with T := T }, some e)
  | (T, none) =>
    if pol then
      match setAlm junk c.G l m with
      | (G, some e) => ({ c with T := T, G := G }, some e)
      | (G, none) =>
        let r := setAlm junk c.C l m
        (⟨T, G, r.1⟩, r.2)
    else ({ c with T := T }, none)

/-- `try { x = r; } catch` around local code: the exception ends the call with the object in state `s`. -/
def attempt {β σ : Type} (r : Res β) (s : σ) (k : β → Prog ℂ (σ × Option String)) : Prog ℂ (σ × Option String) :=
  match r with
  | .ok b => k b
  | .throw m => pure (s, some m)
  | .ub w => .done (.ub w)

/-- `mpiMgr.bcast(x)` of an int, levels/cxxsupport/ls_mpi_support.h:247-248. -/
def bcastI (x : ℤ) : Prog ℂ ℤ :=
  .call (.bcastInt x) (fun a => match a with | .int y => pure y | _ => .done (.ub "answer"))

/-- `mpiMgr.bcastRaw(&alm(0,0).re, size, 0)`, src/conviqt_io.cpp:73-77 and :163-167: `size` floats from the first
coefficient on. -/
def bcastAlm (a : Alm ℂ) (size : ℤ) : Prog ℂ (Alm ℂ) :=
  if 0 < a.alm.length ∧ 0 ≤ size ∧ size / 2 ≤ a.alm.length then
    .call (.bcast (a.alm.take (size / 2).toNat)) (fun ans => match ans with
      | .data [ys] => pure { a with alm := ys ++ a.alm.drop (size / 2).toNat }
      | _ => .done (.ub "answer"))
  else .done (.ub "broadcast buffer out of bounds")

/-- The broadcasts of the components. -/
def bcastComps (pol : Bool) (c : Comps) (size : ℤ) : Prog ℂ Comps := do
  let T ← bcastAlm c.T size
  if pol then do
    let G ← bcastAlm c.G size
    let C ← bcastAlm c.C size
    pure ⟨T, G, C⟩
  else pure { c with T := T }

/-- Allocation, reading and broadcast: src/conviqt_io.cpp:54-77 (`beam`) and :144-167 (`sky`).  If rank 0 throws in the
middle of reading, the contents of its object are unspecified; the model then reports the freshly allocated ones. -/
noncomputable def loadComps (pol : Bool) (fs : Files) (chunk : ℕ) (junk : ℕ → ℂ) (rank : ℕ) (file : String) (l m size : ℤ)
    (c : Comps) : Prog ℂ (Comps × Option String) :=
  match setComps pol junk c l m with
  | (c, some e) => pure (c, some e)
  | (c, none) =>
    attempt (if rank = 0 then readComps pol fs chunk file l m c else ok c) c (fun c => do
      let c ← bcastComps pol c size
      pure (c, none))

/-- The coefficients of a beam. -/
def Beam.comps (b : Beam) : Comps := ⟨b.T, b.G, b.C⟩

/-- Replace the coefficients of a beam. -/
def Beam.withComps (b : Beam) (c : Comps) : Beam := { b with T := c.T, G := c.G, C := c.C }

/-- The limits `beam::read` chooses, src/conviqt_io.cpp:40-51. -/
def beamLimits (bl bm lf mf : ℤ) : ℤ × ℤ :=
  let l := if bl > 0 then bl else lf
  (l, if bm > 0 then bl else min l mf)

/-- `beam::read` after the limits of the file are known, src/conviqt_io.cpp:34-79. -/
noncomputable def beamRead2 (fs : Files) (chunk : ℕ) (junk : ℕ → ℂ) (rank : ℕ) (bl bm : ℤ) (pol : Bool) (file : String)
    (b : Beam) (lf mf : ℤ) : Prog ℂ (Beam × Option String) :=
  if lf < bl then pure (b, some "Beam lmax exceeds available expansion order.")
  else if mf < bm then pure (b, some "Beam mmax exceeds available expansion order.")
  else
    let l := (beamLimits bl bm lf mf).1
    let m := (beamLimits bl bm lf mf).2
    let b := { b with lmax := some l, mmax := some m }
    do
      let r ← loadComps pol fs chunk junk rank file l m ((m + 1) * (m + 2) + 2 * (m + 1) * (l - m)) b.comps
      pure (b.withComps r.1, r.2)

/-- `beam::read`, src/conviqt_io.cpp:11-80. -/
noncomputable def beamRead (fs : Files) (chunk : ℕ) (junk : ℕ → ℂ) (rank : ℕ) (bl bm : ℤ) (pol : Bool) (file : String)
    (b : Beam) : Prog ℂ (Beam × Option String) :=
  attempt (if rank = 0 then fileSize pol fs file else ok (0, 0)) { b with pol := some pol } (fun sz => do
    let lf ← bcastI sz.1
    let mf ← bcastI sz.2
    beamRead2 fs chunk junk rank bl bm pol file { b with pol := some pol } lf mf)

/-- The coefficients of a sky. -/
def Sky.comps (s : Sky) : Comps := ⟨s.T, s.G, s.C⟩

/-- Replace the coefficients of a sky. -/
def Sky.withComps (s : Sky) (c : Comps) : Sky := { s with T := c.T, G := c.G, C := c.C }

/-- Deconvolution at the end of `sky::read`, src/conviqt_io.cpp:169-174. -/
noncomputable def deconvolve (pol : Bool) (c : Comps) (fwhm : ℝ) : Res Comps :=
  if pol then do
    let r ← smoothPol c.T c.G c.C (-(arcmin2rad * fwhm))
    ok ⟨r.1, r.2.1, r.2.2⟩
  else do
    let T ← smooth c.T (-(arcmin2rad * fwhm))
    ok { c with T := T }

/-- `sky::read` after the limits of the file are known, src/conviqt_io.cpp:128-176. -/
noncomputable def skyRead2 (fs : Files) (chunk : ℕ) (junk : ℕ → ℂ) (rank : ℕ) (sl : ℤ) (pol : Bool) (file : String)
    (fwhm : ℝ) (s : Sky) (lf mf : ℤ) : Prog ℂ (Sky × Option String) :=
  if lf < sl then pure (s, some "Sky lmax exceeds available expansion order.")
  else
    let l := if sl > 0 then sl else lf
    let s := { s with lmax := some l }
    if mf < l then pure (s, some "Sky mmax exceeds available expansion order.")
    else do
      let r ← loadComps pol fs chunk junk rank file l l ((l + 1) * (l + 2)) s.comps
      match r.2 with
      | some e => pure (s.withComps r.1, some e)
      | none => attempt (deconvolve pol r.1 fwhm) (s.withComps r.1) (fun c => pure (s.withComps c, none))

/-- `sky::read`, src/conviqt_io.cpp:102-177. -/
noncomputable def skyRead (fs : Files) (chunk : ℕ) (junk : ℕ → ℂ) (rank : ℕ) (sl : ℤ) (pol : Bool) (file : String)
    (fwhm : ℝ) (s : Sky) : Prog ℂ (Sky × Option String) :=
  attempt (if rank = 0 then fileSize pol fs file else ok (0, 0)) { s with pol := some pol } (fun sz => do
    let lf ← bcastI sz.1
    let mf ← bcastI sz.2
    skyRead2 fs chunk junk rank sl pol file fwhm { s with pol := some pol } lf mf)

end Verif.Obj
