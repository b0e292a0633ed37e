import Verif.Api.CApi
import Verif.Tod.Arith

/-!
# The Python classes `Beam` and `Sky`: reading and replacing the coefficients (C54)

python/libconviqt_wrapper/__init__.py:87-181 (`Beam`), :219-297 (`Sky`) on top of the C interface.

A Python call returns a value, raises a Python exception, runs into undefined behaviour in the C library (`ub`), or ends the
process because a C++ exception leaves a C function called through ctypes (`abort`).  The storage of an expansion is the list
of its single-precision numbers (real and imaginary parts alternate); arithmetic is exact, the conversion of a Python float to
`c_float` is the parameter `f32`.  A one-dimensional NumPy array of complex numbers is a list.
-/

namespace Verif.Py
open Verif Res Verif.Obj Verif.Harm

/-- Outcome of a Python call. -/
inductive Val (α : Type) where
  | ret (a : α)
  | raise (what : String)
  | ub (why : String)
  | abort (why : String)

namespace Val

def bind {α β : Type} : Val α → (α → Val β) → Val β
  | ret a, f => f a
  | raise e, _ => raise e
  | ub w, _ => ub w
  | abort w, _ => abort w

instance : Monad Val where
  pure := Val.ret
  bind := Val.bind

@[simp] theorem ret_bind {α β : Type} (a : α) (f : α → Val β) : (ret a >>= f) = f a := rfl
@[simp] theorem raise_bind {α β : Type} (e : String) (f : α → Val β) : ((raise e : Val α) >>= f) = raise e := rfl
@[simp] theorem ub_bind {α β : Type} (e : String) (f : α → Val β) : ((ub e : Val α) >>= f) = ub e := rfl

/-- Continue with the value; anything else ends the call with the object in state `s`. -/
def andThen {α β σ : Type} (v : Val α) (s : σ) (k : α → Val β × σ) : Val β × σ :=
  match v with
  | ret a => k a
  | raise e => (raise e, s)
  | ub w => (ub w, s)
  | abort w => (abort w, s)

@[simp] theorem ret_andThen {α β σ : Type} (a : α) (s : σ) (k : α → Val β × σ) : (ret a).andThen s k = k a := rfl
@[simp] theorem raise_andThen {α β σ : Type} (e : String) (s : σ) (k : α → Val β × σ) : (raise e : Val α).andThen s k = (raise e, s) := rfl
@[simp] theorem ub_andThen {α β σ : Type} (e : String) (s : σ) (k : α → Val β × σ) : (ub e : Val α).andThen s k = (ub e, s) := rfl

end Val

open Val

/-- C++ code that cannot throw, called through a guarded C function. -/
def ofRes {α : Type} : Res α → Val α
  | .ok a => .ret a
  | .throw e => .raise e
  | .ub w => .ub w

/-! ## memory -/

/-- The `float`s of a list of `xcomplex<float>`. -/
def floats : List ℂ → List ℝ
  | [] => []
  | z :: zs => z.re :: z.im :: floats zs

/-- The coefficients held by a list of `float`s. -/
def pack : List ℝ → List ℂ
  | a :: b :: t => ⟨a, b⟩ :: pack t
  | _ => []

/-- `arr[start:stop:2]` of a ctypes pointer: a list of `n` numbers. -/
def slice2 (mem : List ℝ) (start n : ℕ) : Res (List ℝ) := (List.range n).mapM (fun k => rd mem ((start + 2 * k : ℕ) : ℤ))

/-- `np.array(arr[0:nelem:2]) + 1j * np.array(arr[1:nelem:2])`, __init__.py:141, 146, 150, 259, 264, 268.  Slicing a null
pointer raises `ValueError`. -/
def fetch (nelem : ℤ) : Option (List ℝ) → Val (List ℂ)
  | none => .raise "ValueError: NULL pointer access"
  | some mem => do
    let re ← ofRes (slice2 mem 0 ((nelem.toNat + 1) / 2))
    let im ← ofRes (slice2 mem 1 (nelem.toNat / 2))
    .ret (List.zipWith Complex.mk re im)

/-- `buf[start], buf[start+2], … = xs` -/
def write2 (buf : List ℝ) (start : ℕ) : List ℝ → List ℝ
  | [] => buf
  | x :: xs => write2 (buf.set start x) (start + 2) xs

/-- `replace[start:nelem:2] = xs` of a ctypes array with `n` positions in the slice: the sizes must agree. -/
def assign2 (buf : List ℝ) (start n : ℕ) (xs : List ℝ) : Val (List ℝ) :=
  if xs.length = n then .ret (write2 buf start xs) else .raise "ValueError: Can only assign sequence of same size"

/-- `ct.memmove(arr, replace, nelem * ct.sizeof(ct.c_float))` -/
def memmove (mem : Option (List ℝ)) (buf : List ℝ) (nelem : ℕ) : Val (List ℝ) :=
  match mem with
  | none => .ub "memmove to a null pointer"
  | some m => if nelem ≤ m.length ∧ nelem ≤ buf.length then .ret (buf.take nelem ++ m.drop nelem)
    else .ub "memmove out of bounds"

/-! ## the objects -/

/-- What the methods of `Beam` and `Sky` work on: the C++ object (expansions, limits reported by `conviqt_*_lmax`/`_mmax`,
`pol` member) and the Python attribute `_pol`. -/
structure Exp where
  T : Alm ℂ
  G : Alm ℂ
  C : Alm ℂ
  lmax : Option ℤ
  mmax : Option ℤ
  cpol : Option Bool
  pyPol : ℤ

/-- Reading a member that may be indeterminate. -/
def knownV {α : Type} : Option α → Val α
  | some x => .ret x
  | none => .ub "indeterminate value"

/-- `num_alms`, __init__.py:130-133 and :250-253 (for `Sky`, `mmax = lmax`). -/
def numAlmsPy (e : Exp) : Val ℤ := do
  let lmax ← knownV e.lmax
  let mmax ← knownV e.mmax
  .ret (((mmax + 1) * (mmax + 2)) / 2 + (mmax + 1) * (lmax - mmax))

/-- `conviqt_beam_Tdata`, `conviqt_sky_Tdata`, src/cconviqt.cpp:79-86, 162-169: the memory pointed to. -/
def dataT (e : Exp) : Val (Option (List ℝ)) := .ret (some (floats e.T.alm))

/-- `conviqt_*_Gdata`, `conviqt_*_Cdata`, src/cconviqt.cpp:88-104, 171-187: `blmG()` throws for an unpolarised object
(src/conviqt_io.cpp:86-100, 183-197), which is turned into a null pointer. -/
def dataP (a : Alm ℂ) : Option Bool → Val (Option (List ℝ))
  | none => .ub "indeterminate value"
  | some false => .ret none
  | some true => .ret (some (floats a.alm))

/-- `get_data`, __init__.py:135-151 and :255-269. -/
def getData (e : Exp) : Val (List (List ℂ)) := do
  let n ← numAlmsPy e
  let p ← dataT e
  let t ← fetch (n * 2) p
  if e.pyPol ≠ 0 then do
    let p ← dataP e.G e.cpol
    let g ← fetch (n * 2) p
    let p ← dataP e.C e.cpol
    let c ← fetch (n * 2) p
    .ret [t, g, c]
  else .ret [t]

/-- One component of `set_data`, __init__.py:165-167, 172-174, 178-180: new contents of the buffer and of the memory. -/
def storeComp (f32 : ℝ → ℝ) (nelem : ℕ) (p : Val (Option (List ℝ))) (buf : List ℝ) (x : Option (List ℂ)) :
    Val (List ℝ × List ℝ) := do
  let mem ← p
  match x with
  | none => .raise "IndexError: list index out of range"
  | some xs => do
    let buf ← assign2 buf 0 ((nelem + 1) / 2) (xs.map (fun z => f32 z.re))
    let buf ← assign2 buf 1 (nelem / 2) (xs.map (fun z => f32 z.im))
    let m ← memmove mem buf nelem
    .ret (buf, m)

/-- Overwrite the memory of an expansion. -/
def putMem (a : Alm ℂ) (m : List ℝ) : Alm ℂ := { a with alm := pack m }

/-- `set_data`, __init__.py:153-181 and :271-297: outcome and the object afterwards. -/
def setData (f32 : ℝ → ℝ) (e : Exp) (blm : List (List ℂ)) : Val Unit × Exp :=
  (numAlmsPy e).andThen e fun n =>
  match blm[0]? with
  | none => (.raise "IndexError: list index out of range", e)
  | some x0 =>
    if (x0.length : ℤ) ≠ n then (.raise "RuntimeError: Cannot set b_lm", e)
    else
      let nelem := (n * 2).toNat
      (storeComp f32 nelem (dataT e) (List.replicate nelem 0) (some x0)).andThen e fun r =>
      let e := { e with T := putMem e.T r.2 }
      if e.pyPol ≠ 0 then
        (storeComp f32 nelem (dataP e.G e.cpol) r.1 blm[1]?).andThen e fun r =>
        let e := { e with G := putMem e.G r.2 }
        (storeComp f32 nelem (dataP e.C e.cpol) r.1 blm[2]?).andThen e fun r =>
        (.ret (), { e with C := putMem e.C r.2 })
      else (.ret (), e)

/-- `Beam`: the C++ object and the attribute `_pol`. -/
structure PyBeam where
  c : Beam
  pol : ℤ

/-- `Sky` -/
structure PySky where
  c : Sky
  pol : ℤ

def PyBeam.exp (b : PyBeam) : Exp := ⟨b.c.T, b.c.G, b.c.C, b.c.lmax, b.c.mmax, b.c.pol, b.pol⟩
def PySky.exp (s : PySky) : Exp := ⟨s.c.T, s.c.G, s.c.C, s.c.lmax, s.c.lmax, s.c.pol, s.pol⟩

def PyBeam.getData (b : PyBeam) : Val (List (List ℂ)) := Py.getData b.exp
def PySky.getData (s : PySky) : Val (List (List ℂ)) := Py.getData s.exp

def PyBeam.setData (f32 : ℝ → ℝ) (b : PyBeam) (x : List (List ℂ)) : Val Unit × PyBeam :=
  let r := Py.setData f32 b.exp x
  (r.1, { b with c := { b.c with T := r.2.T, G := r.2.G, C := r.2.C } })
def PySky.setData (f32 : ℝ → ℝ) (s : PySky) (x : List (List ℂ)) : Val Unit × PySky :=
  let r := Py.setData f32 s.exp x
  (r.1, { s with c := { s.c with T := r.2.T, G := r.2.G, C := r.2.C } })

/-- A Python integer passed as `ct.c_byte` (the low eight bits) and converted to `bool`. -/
def cByte (p : ℤ) : Bool := decide (p % 256 ≠ 0)

/-- `Beam.__init__`, __init__.py:92-99, on one rank.  Storage for the C++ object is taken to be available. -/
noncomputable def beamInit (fs : Files) (chunk : ℕ) (junk : ℕ → ℂ) (rank : ℕ) (lmax mmax pol : ℤ) (file : String) :
    Spmd.Prog ℂ (Val PyBeam) :=
  CApi.beamReadC fs chunk junk rank lmax mmax (cByte pol) file (Beam.fresh (junk 0)) >>= fun x =>
    Spmd.Prog.done (ok (if x.2 ≠ 0 then .raise "RuntimeError: Failed to load" else .ret ⟨x.1, pol⟩))

/-- `Sky.__init__`, __init__.py:224-231, on one rank. -/
noncomputable def skyInit (fs : Files) (chunk : ℕ) (junk : ℕ → ℂ) (rank : ℕ) (lmax pol : ℤ) (file : String) (fwhm : ℝ) :
    Spmd.Prog ℂ (Val PySky) :=
  CApi.skyReadC fs chunk junk rank lmax (cByte pol) file fwhm (Sky.fresh (junk 0)) >>= fun x =>
    Spmd.Prog.done (ok (if x.2 ≠ 0 then .raise "RuntimeError: Failed to load" else .ret ⟨x.1, pol⟩))

/-! ## lemmas about the memory -/

theorem floats_length (l : List ℂ) : (floats l).length = 2 * l.length := by
  induction l with
  | nil => rfl
  | cons z zs ih => simp only [floats, List.length_cons, ih]; omega

theorem pack_floats (l : List ℂ) : pack (floats l) = l := by
  induction l with
  | nil => rfl
  | cons z zs ih => simp only [floats, pack, ih]

theorem floats_even (l : List ℂ) (k : ℕ) : (floats l)[2 * k]? = (l[k]?).map Complex.re := by
  induction l generalizing k with
  | nil => simp [floats]
  | cons z zs ih =>
    cases k with
    | zero => rfl
    | succ k =>
      rw [show 2 * (k + 1) = 2 * k + 2 by ring]
      simp only [floats, List.getElem?_cons_succ, ih]

theorem floats_odd (l : List ℂ) (k : ℕ) : (floats l)[1 + 2 * k]? = (l[k]?).map Complex.im := by
  induction l generalizing k with
  | nil => simp [floats]
  | cons z zs ih =>
    cases k with
    | zero => rfl
    | succ k =>
      rw [show 1 + 2 * (k + 1) = 1 + 2 * k + 2 by ring]
      simp only [floats, List.getElem?_cons_succ, ih]

theorem slice2_even (l : List ℂ) : slice2 (floats l) 0 l.length = ok (l.map Complex.re) := by
  unfold slice2
  rw [Tod.mapM_ok (g := fun k => (l.getD k 0).re)]
  · congr 1
    refine List.ext_getElem (by simp) (fun k h1 h2 => ?_)
    simp only [List.length_map, List.length_range] at h1
    simp [List.getD, h1]
  · intro k hk
    have hk := List.mem_range.mp hk
    rw [rd_eq_ok]
    refine ⟨by omega, ?_⟩
    rw [Int.toNat_natCast, Nat.zero_add, floats_even]
    simp [List.getD, hk]

theorem slice2_odd (l : List ℂ) : slice2 (floats l) 1 l.length = ok (l.map Complex.im) := by
  unfold slice2
  rw [Tod.mapM_ok (g := fun k => (l.getD k 0).im)]
  · congr 1
    refine List.ext_getElem (by simp) (fun k h1 h2 => ?_)
    simp only [List.length_map, List.length_range] at h1
    simp [List.getD, h1]
  · intro k hk
    have hk := List.mem_range.mp hk
    rw [rd_eq_ok]
    refine ⟨by omega, ?_⟩
    rw [Int.toNat_natCast, floats_odd]
    simp [List.getD, hk]

theorem fetch_floats (l : List ℂ) {n : ℤ} (hn : n = l.length) : fetch (n * 2) (some (floats l)) = .ret l := by
  subst hn
  have e1 : ((((l.length : ℤ) * 2).toNat) + 1) / 2 = l.length := by omega
  have e2 : (((l.length : ℤ) * 2).toNat) / 2 = l.length := by omega
  unfold fetch
  dsimp only
  rw [e1, e2, slice2_even, slice2_odd]
  simp only [ofRes, ret_bind]
  congr 1
  induction l with
  | nil => rfl
  | cons z zs ih => simp only [List.map_cons, List.zipWith_cons_cons]; rw [ih (by omega) (by omega)]

theorem write2_shift (a b : ℝ) (t : List ℝ) (s : ℕ) (xs : List ℝ) : write2 (a :: b :: t) (s + 2) xs = a :: b :: write2 t s xs := by
  induction xs generalizing t s with
  | nil => rfl
  | cons x xs ih =>
    simp only [write2]
    rw [show (a :: b :: t).set (s + 2) x = a :: b :: t.set s x from rfl, ih]

/-- Writing the real and the imaginary parts gives the memory image of the coefficients. -/
theorem write2_floats (xs : List ℂ) : ∀ buf : List ℝ, buf.length = 2 * xs.length →
    write2 (write2 buf 0 (xs.map Complex.re)) 1 (xs.map Complex.im) = floats xs := by
  induction xs with
  | nil =>
    intro buf h
    simp only [List.map_nil, write2, floats]
    exact List.eq_nil_of_length_eq_zero (by simpa using h)
  | cons x xs ih =>
    intro buf h
    match buf, h with
    | a :: b :: t, h =>
      simp only [List.length_cons] at h
      have e : write2 (a :: b :: t) 0 ((x :: xs).map Complex.re) = x.re :: b :: write2 t 0 (xs.map Complex.re) := by
        simp only [List.map_cons, write2, List.set_cons_zero]
        exact write2_shift x.re b t 0 _
      rw [e]
      have e2 : ∀ u, write2 (x.re :: b :: u) 1 ((x :: xs).map Complex.im) = x.re :: x.im :: write2 u 1 (xs.map Complex.im) := by
        intro u
        simp only [List.map_cons, write2]
        rw [show (x.re :: b :: u).set 1 x.im = x.re :: x.im :: u from rfl]
        exact write2_shift x.re x.im u 1 _
      rw [e2, ih t (by omega)]
      rfl
    | [a], h => simp only [List.length_cons, List.length_nil] at h; omega
    | [], h => simp only [List.length_cons, List.length_nil] at h; omega

/-- The nearest single-precision number, componentwise. -/
def f32c (f32 : ℝ → ℝ) (z : ℂ) : ℂ := ⟨f32 z.re, f32 z.im⟩

theorem storeComp_ok (f32 : ℝ → ℝ) (l x : List ℂ) (buf : List ℝ) {nelem : ℕ} (hn : nelem = 2 * l.length) (hb : buf.length = nelem)
    (hx : x.length = l.length) :
    storeComp f32 nelem (.ret (some (floats l))) buf (some x) = .ret (floats (x.map (f32c f32)), floats (x.map (f32c f32))) := by
  have e1 : (nelem + 1) / 2 = l.length := by omega
  have e2 : nelem / 2 = l.length := by omega
  unfold storeComp
  simp only [ret_bind]
  unfold assign2
  rw [e1, e2, if_pos (by simpa using hx)]
  simp only [ret_bind]
  rw [if_pos (by simpa using hx)]
  simp only [ret_bind]
  have hre : x.map (fun z => f32 z.re) = (x.map (f32c f32)).map Complex.re := by simp [f32c, Function.comp_def]
  have him : x.map (fun z => f32 z.im) = (x.map (f32c f32)).map Complex.im := by simp [f32c, Function.comp_def]
  rw [hre, him, write2_floats _ buf (by rw [hb, hn, List.length_map, hx])]
  unfold memmove
  dsimp only
  rw [if_pos (by rw [floats_length, floats_length, List.length_map]; omega), List.take_of_length_le (by
    rw [floats_length, List.length_map]; omega), List.drop_of_length_le (by rw [floats_length]; omega), List.append_nil]
  rfl

/-- A wrong number of values raises. -/
theorem storeComp_size (f32 : ℝ → ℝ) (l x : List ℂ) (buf : List ℝ) {nelem : ℕ} (hn : nelem = 2 * l.length) (hx : x.length ≠ l.length) :
    ∃ what, storeComp f32 nelem (.ret (some (floats l))) buf (some x) = .raise what := by
  have e1 : (nelem + 1) / 2 = l.length := by omega
  refine ⟨"ValueError: Can only assign sequence of same size", ?_⟩
  unfold storeComp
  simp only [ret_bind]
  unfold assign2
  rw [e1, if_neg (by simpa using hx)]
  rfl

end Verif.Py
