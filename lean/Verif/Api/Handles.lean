import Verif.Api.CApi

/-!
# Handles of the C interface: model

One C program on one rank calls the functions of src/cconviqt.cpp in any order, on any addresses.  The heap maps an address
to the object living there.  `new` may return any free address, in particular one that was used and freed before.  Every
function casts its argument to the expected class without a check and dereferences it inside `try`; a null pointer, a deleted
object or an object of another class is undefined behaviour, which no `catch` intercepts.

What a call learns from outside the program (the address the allocator returns, whether memory is available, the outcome of
a collective read or convolution on this rank) is part of the call; `Possible` says which values can occur.
-/

namespace Verif.Handle
open Verif Res Verif.Obj Verif.Harm

/-- `class detector`, src/conviqt.hpp:109-132: `epsilon_` is indeterminate (`none`) until set. -/
structure Det where
  id : List Char
  eps : Option ℝ

/-- The storage of an `arr<double>` (levels/cxxsupport/ls_arr.h:169-190): the null pointer, an owned block (`none`:
indeterminate element), or a pointer to a block that was released. -/
inductive Buf where
  | null
  | own (data : List (Option ℝ))
  | freed

/-- `class pointing : arr<double>`, src/conviqt.hpp:88-106. -/
structure Pnt where
  size : ℤ
  buf : Buf

/-- An object of the heap. -/
inductive Cell where
  | sky (x : Sky)
  | beam (x : Beam)
  | det (x : Det)
  | pnt (x : Pnt)
  | conv (x : Conv)

inductive Kind where
  | sky | beam | det | pnt | conv
  deriving DecidableEq

def Cell.kind : Cell → Kind
  | .sky _ => .sky
  | .beam _ => .beam
  | .det _ => .det
  | .pnt _ => .pnt
  | .conv _ => .conv

abbrev Heap := ℕ → Option Cell

/-- What the allocator answers to `new(std::nothrow) T(…)`; `throws`: the constructor of `T` throws for lack of memory. -/
inductive Alloc where
  | null
  | at (a : ℕ)
  | throws (msg : String)

/-- Calls of the C interface with their arguments; `Tdata`, `Gdata`, `Cdata` are `data 0`, `1`, `2`.  `pntWrite` and
`pntRead` are the accesses `p[i] = x` and `p[i]` of the program through the pointer `conviqt_pointing_data` returned. -/
inductive Call where
  | newSky (al : Alloc) (junk : ℂ)
  | newBeam (al : Alloc) (junk : ℂ)
  | newDet (al : Alloc)
  | newDetId (al : Alloc) (id : List Char)
  | newPnt (al : Alloc)
  | newConv (al : Alloc) (s b d : ℕ) (pol : Bool) (lmax mmax order : ℤ)
  | del (k : Kind) (p : ℕ)
  | readSky (p : ℕ) (x : Sky) (st : Option String)
  | readBeam (p : ℕ) (x : Beam) (st : Option String)
  | skyLmax (p : ℕ)
  | beamLmax (p : ℕ)
  | beamMmax (p : ℕ)
  | normalize (p : ℕ)
  | normalized (p : ℕ)
  | rmMono (p : ℕ)
  | rmDip (p : ℕ)
  | dataSky (p : ℕ) (part : Fin 3)
  | dataBeam (p : ℕ) (part : Fin 3)
  | setEps (p : ℕ) (x : ℝ)
  | getEps (p : ℕ)
  | setId (p : ℕ) (id : List Char)
  | getId (p : ℕ) (size : ℕ)
  | pntAlloc (p : ℕ) (n : ℤ) (mem : Option (List (Option ℝ)))
  | pntData (p : ℕ)
  | pntWrite (p : ℕ) (i : ℕ) (x : ℝ)
  | pntRead (p : ℕ) (i : ℕ)
  | setSky (c s : ℕ)
  | setBeam (c b : ℕ)
  | setDet (c d : ℕ)
  | convolve (c p : ℕ) (calibrate : Bool) (kern : Bool) (wgt : List ℝ) (data : List (Option ℝ)) (st : Option String)

/-- What the calling program observes. -/
inductive Ret where
  | ptr (a : ℕ)
  | status (i : ℤ)
  | real (x : ℝ)
  | out (i : ℤ) (x : ℝ)
  | str (i : ℤ) (s : List Char)
  | inner (a : ℕ) (part : ℕ)
  | dangling
  | elem (x : Option ℝ)
  | escape (msg : String)

/-! ## dereferencing a handle -/

def skyAt (h : Heap) (p : ℕ) : Res Sky := match h p with | some (.sky x) => ok x | _ => ub "not a sky object"
def beamAt (h : Heap) (p : ℕ) : Res Beam := match h p with | some (.beam x) => ok x | _ => ub "not a beam object"
def detAt (h : Heap) (p : ℕ) : Res Det := match h p with | some (.det x) => ok x | _ => ub "not a detector object"
def pntAt (h : Heap) (p : ℕ) : Res Pnt := match h p with | some (.pnt x) => ok x | _ => ub "not a pointing object"
def convAt (h : Heap) (p : ℕ) : Res Conv := match h p with | some (.conv x) => ok x | _ => ub "not a convolver object"

/-- Store an object. -/
def put (h : Heap) (p : ℕ) (c : Cell) : Heap := Function.update h p (some c)

/-- The objects of the heap as `Obj.World`; only used at addresses checked before. -/
noncomputable def worldOf (h : Heap) : World where
  sky := fun a => match h a with | some (.sky x) => x | _ => Sky.fresh 0
  beam := fun a => match h a with | some (.beam x) => x | _ => Beam.fresh 0
  eps := fun a => match h a with | some (.det x) => x.eps | _ => none

/-- `return new(std::nothrow) T(…)`; `c` is the object the constructor leaves. -/
def doNew (h : Heap) (c : Cell) : Alloc → Res (Ret × Heap)
  | .null => ok (.ptr 0, h)
  | .at a => ok (.ptr a, put h a c)
  | .throws m => ok (.escape m, h)

/-- `delete ref; return 0`, e.g. src/cconviqt.cpp:14-22.  Deleting the null pointer does nothing.  Destructors: `sky`, `beam`,
`detector` and `convolver` release their members (never the objects a convolver refers to); `~arrT` releases the block of a
pointing (ls_arr.h:214), which must not have been released before. -/
def doDel (h : Heap) (k : Kind) (p : ℕ) : Res (Ret × Heap) :=
  if p = 0 then ok (.status 0, h)
  else match h p with
    | none => ub "no object"
    | some c =>
      if c.kind = k then
        match c with
        | .pnt ⟨_, .freed⟩ => ub "block released twice"
        | _ => ok (.status 0, Function.update h p none)
      else ub "object of another class"

/-- 0, or -1 if the method threw. -/
def stat : Option String → ℤ
  | none => 0
  | some _ => -1

/-- The unsigned argument `arr::alloc` receives from a `long`. -/
def toSize (n : ℤ) : ℤ := if n < 0 then n + 18446744073709551616 else n

/-- `arr::alloc(sz)`, levels/cxxsupport/ls_arr.h:219-226, through `conviqt_pointing_alloc`, src/cconviqt.cpp:257-268: status
and new state.  `mem`: the block obtained, `none` if the allocation throws (caught: -1). -/
def pntAllocOp (x : Pnt) (n : ℤ) (mem : Option (List (Option ℝ))) : Res (ℤ × Pnt) :=
  if toSize n = x.size then ok (0, x)
  else match x.buf with
    | .freed => ub "block released twice"
    | _ =>
      if toSize n = 0 then ok (0, ⟨0, .null⟩)
      else match mem with
        | some l => ok (0, ⟨toSize n, .own l⟩)
        | none => ok (-1, ⟨toSize n, match x.buf with | .null => .null | _ => .freed⟩)

/-- `convolve` reads its samples, if there are any (`totsize = size / 5`), src/conviqt_math.cpp:1493. -/
def readsSamples (y : Pnt) : Res Unit :=
  match y.buf with
  | .own _ => ok ()
  | _ => if y.size < 5 then ok () else ub "no samples"

/-- The kernel reads the coefficients of beam and sky, src/conviqt_math.cpp:699-700, 951-956. -/
def readsKernel (h : Heap) (x : Conv) : Bool → Res Unit
  | true => do let _ ← beamAt h x.b; let _ ← skyAt h x.s; ok ()
  | false => ok ()

/-- The calibration, src/conviqt_math.cpp:1654-1655 (not reached if an exception was thrown before). -/
def readsCalib (h : Heap) (x : Conv) : Bool → Res Unit
  | true => do
    let b ← beamAt h x.b
    match b.normalized with
    | true => ok ()
    | false => do
      let d ← detAt h x.d
      let _ ← known d.eps
      ok ()
  | false => ok ()

/-- One call, src/cconviqt.cpp. -/
noncomputable def exec (h : Heap) : Call → Res (Ret × Heap)
  -- :12, :106, :189-193, :245
  | .newSky al junk => doNew h (.sky (Sky.fresh junk)) al
  | .newBeam al junk => doNew h (.beam (Beam.fresh junk)) al
  | .newDet al => doNew h (.det ⟨[], none⟩) al
  | .newDetId al id => doNew h (.det ⟨id, none⟩) al
  | .newPnt al => doNew h (.pnt ⟨0, .null⟩) al
  -- :279-320; no reference to the detector is followed
  | .newConv al s b d pol lmax mmax order =>
    if CApi.LMAXMAX < lmax ∨ CApi.LMAXMAX < mmax then ok (.ptr 0, h)
    else match al with
      | .null => ok (.ptr 0, h)
      | .throws m => ok (.escape m, h)
      | .at a => do
        let _ ← skyAt h s
        let _ ← beamAt h b
        match ctor (worldOf h) s b d pol lmax mmax order with
        | .ok x => ok (.ptr a, put h a (.conv x))
        | .throw m => ok (.escape m, h)
        | .ub w => ub w
  -- :14-22, :108-116, :195-203, :247-255, :322-330
  | .del k p => doDel h k p
  -- :24-37, :118-131
  | .readBeam p x st => do let _ ← beamAt h p; ok (.status (stat st), put h p (.beam x))
  | .readSky p x st => do let _ ← skyAt h p; ok (.status (stat st), put h p (.sky x))
  -- :39-55, :133-140
  | .beamLmax p => do let x ← beamAt h p; let l ← known x.lmax; ok (.status l, h)
  | .beamMmax p => do let x ← beamAt h p; let l ← known x.mmax; ok (.status l, h)
  | .skyLmax p => do let x ← skyAt h p; let l ← known x.lmax; ok (.status l, h)
  -- :57-77
  | .normalize p => do
    let x ← beamAt h p
    match Obj.normalize x with
    | .ok r => ok (.real r.1, put h p (.beam r.2))
    | .throw _ => ok (.real (-1), h)
    | .ub w => ub w
  | .normalized p => do let x ← beamAt h p; ok (.status (if x.normalized then 1 else 0), h)
  -- :142-160
  | .rmMono p => do
    let x ← skyAt h p
    match removeMonopole x with
    | .ok x' => ok (.status 0, put h p (.sky x'))
    | .throw _ => ok (.status (-1), h)
    | .ub w => ub w
  | .rmDip p => do
    let x ← skyAt h p
    match removeDipole x with
    | .ok x' => ok (.status 0, put h p (.sky x'))
    | .throw _ => ok (.status (-1), h)
    | .ub w => ub w
  -- :79-104, :162-187: address of the first coefficient
  | .dataBeam p part => do
    let x ← beamAt h p
    if (if part = 0 then x.T else if part = 1 then x.G else x.C).alm = [] then ub "no coefficient" else ok (.inner p part, h)
  | .dataSky p part => do
    let x ← skyAt h p
    if (if part = 0 then x.T else if part = 1 then x.G else x.C).alm = [] then ub "no coefficient" else ok (.inner p part, h)
  -- :205-243
  | .setEps p v => do let x ← detAt h p; ok (.status 0, put h p (.det { x with eps := some v }))
  | .getEps p => do let x ← detAt h p; let e ← known x.eps; ok (.out 0 e, h)
  | .setId p id => do let x ← detAt h p; ok (.status 0, put h p (.det { x with id := id }))
  | .getId p size => do
    let x ← detAt h p
    if x.id.length + 1 ≤ size then ok (.str 0 x.id, h) else ub "buffer overflow"
  -- :257-277
  | .pntAlloc p n mem => do
    let x ← pntAt h p
    let r ← pntAllocOp x n mem
    ok (.status r.1, put h p (.pnt r.2))
  | .pntData p => do
    let x ← pntAt h p
    match x.buf with
    | .null => ok (.ptr 0, h)
    | .own _ => ok (.inner p 0, h)
    | .freed => ok (.dangling, h)
  | .pntWrite p i v => do
    let x ← pntAt h p
    match x.buf with
    | .own l => if i < l.length then ok (.status 0, put h p (.pnt { x with buf := .own (l.set i (some v)) })) else ub "out of bounds"
    | _ => ub "no block"
  | .pntRead p i => do
    let x ← pntAt h p
    match x.buf with
    | .own l => match l[i]? with
      | some v => ok (.elem v, h)
      | none => ub "out of bounds"
    | _ => ub "no block"
  -- :332-363; the new object is not looked at
  | .setSky c s => do let x ← convAt h c; ok (.status 0, put h c (.conv { x with s := s }))
  | .setBeam c b => do let x ← convAt h c; ok (.status 0, put h c (.conv { x with b := b }))
  | .setDet c d => do let x ← convAt h c; ok (.status 0, put h c (.conv { x with d := d }))
  -- :365-385; `kern`: this rank enters the kernel
  | .convolve c p cal kern wgt data st => do
    let x ← convAt h c
    let y ← pntAt h p
    readsSamples y
    readsKernel h x kern
    readsCalib h x (decide (st = none ∧ 5 ≤ y.size ∧ cal = true))
    ok (match st with | none => .status 0 | some m => .escape m,
      put (put h c (.conv { x with wgt := wgt })) p
        (.pnt (match y.buf with | .own _ => { y with buf := .own data } | _ => y)))

/-! ## what can happen -/

/-- A block handed out by the allocator: not null and free. -/
def AllocOK (h : Heap) : Alloc → Prop
  | .at a => a ≠ 0 ∧ h a = none
  | _ => True

/-- The coefficients of an object are in order. -/
def Sound (T G C : Alm ℂ) : Prop := T.WF ∧ T.alm ≠ [] ∧ G.alm ≠ [] ∧ C.alm ≠ []

/-- Which outside values a call can meet.  A successful read leaves known limits and complete coefficients (C30, C31), a
failed one anything, and none touches the mark of a normalised beam (src/conviqt_io.cpp:11-80, 102-177); blocks have the
length asked for (a `long`), which is never negative; `convolve` rearranges and fills the samples in place. -/
def Possible (h : Heap) : Call → Prop
  | .newSky al _ | .newBeam al _ | .newDetId al _ | .newConv al _ _ _ _ _ _ _ => AllocOK h al
  | .newDet al | .newPnt al => AllocOK h al ∧ ∀ m, al ≠ .throws m
  | .readSky _ x st => st = none → Sound x.T x.G x.C ∧ x.lmax.isSome
  | .readBeam p x st => (st = none → Sound x.T x.G x.C ∧ x.lmax.isSome ∧ x.mmax.isSome ∧ x.pol.isSome) ∧
      ∀ y, h p = some (.beam y) → x.normalized = y.normalized
  | .pntAlloc _ n mem => (-9223372036854775808 ≤ n ∧ n < 9223372036854775808) ∧
      ∀ l, mem = some l → 0 ≤ n ∧ (l.length : ℤ) = n
  | .convolve _ p _ _ _ data _ => ∀ y l, h p = some (.pnt y) → y.buf = .own l → data.length = l.length
  | _ => True

/-- Executions from the start of the program: the events so far, newest first, and the heap. -/
inductive Run : List (Call × Ret) → Heap → Prop
  | nil : Run [] (fun _ => none)
  | step {es h c r h'} : Run es h → Possible h c → exec h c = ok (r, h') → Run ((c, r) :: es) h'

end Verif.Handle
