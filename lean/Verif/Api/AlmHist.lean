import Verif.Index.Alm
import Mathlib.Algebra.BigOperators.Group.Finset.Basic
import Mathlib.Algebra.BigOperators.Intervals

/-!
# Histories of calls on sets of coefficients

Model of the class `Alm<T>` (levels/Healpix_cxx/ls_alm.h:39-180, levels/Healpix_cxx/alm.cc:41-52) as a client sees
it: objects created, resized, filled, scaled, added, exchanged, copied and destroyed in any order, with exceptions that
the client catches and goes on from.  Elements are values of an arbitrary type `V` with arbitrary (possibly rounded)
arithmetic; `none` is an element that was never given a value.  Simplifications: integers are unbounded (32-bit wrap of
the index is the subject of `Verif/Index/Overflow.lean`), arithmetic on an element without a value gives one without
a value, allocations of non-negative sizes succeed, and a size that would be negative is the unsigned wrap-around of
it, whose allocation fails.
-/

namespace Verif.AlmHist
open Verif Res Harm

/-- The arithmetic of the elements: `0`, `*=` with a factor, `+=` with a number and `+=` with an element. -/
structure Arith (V K : Type) where
  zero : V
  mul : V → K → V
  addK : V → K → V
  add : V → V → V

variable {V K : Type}

/-- An object: limits and storage (levels/Healpix_cxx/ls_alm.h:42, 93).  `lost = some s`: the storage was released by
an `alloc` whose allocation then failed; the pointer to it is still owned, and the size is already the one asked for,
`s` (a negative number, as its unsigned wrap-around; levels/cxxsupport/ls_arr.h:219-226). -/
structure Obj (V : Type) where
  base : Alm (Option V)
  lost : Option ℤ

/-- The objects alive, by name. -/
abbrev Env (V : Type) := ℕ → Option (Obj V)

/-- The calls of a client. -/
inductive Op (V K : Type) where
  | create (i : ℕ) (l m : ℤ)
  | destroy (i : ℕ)
  | set (i : ℕ) (l m : ℤ)
  | setArr (i : ℕ) (data : List V) (l m : ℤ)
  | toZero (i : ℕ)
  | scale (i : ℕ) (f : K)
  | scaleL (i : ℕ) (fs : List K)
  | scaleM (i : ℕ) (fs : List K)
  | addNum (i : ℕ) (x : K)
  | put (i : ℕ) (l m : ℤ) (v : V)
  | add (i j : ℕ)
  | swap (i j : ℕ)
  | assign (i j : ℕ)

/-- The object of a name; using a name without an object is undefined. -/
def obj (e : Env V) (i : ℕ) : Res (Obj V) :=
  match e i with
  | some o => ok o
  | none => ub "no such object"

/-- Storage used by a call: it must not be dangling. -/
def live (o : Obj V) : Res (Alm (Option V)) :=
  match o.lost with
  | some _ => ub "storage was released"
  | none => ok o.base

/-- `Alm(lmax, mmax)`, levels/Healpix_cxx/ls_alm.h:97-98: `Num_Alms` may throw, a negative size cannot be allocated;
either way there is no object. -/
def create (l m : ℤ) : Option (Obj V) × Option String :=
  match numAlms l m with
  | .ok n => if n < 0 then (none, some "bad_alloc") else (some ⟨⟨l, m, List.replicate n.toNat none⟩, none⟩, none)
  | _ => (none, some "mmax must not be larger than lmax")

/-- `~Alm()`, that is `~arrT()` (levels/cxxsupport/ls_arr.h:214): a dangling pointer is released a second time. -/
def destroy (o : Obj V) : Res Unit :=
  match o.lost with
  | some _ => ub "storage released twice"
  | none => ok ()

/-- `arrT::alloc(sz)`, levels/cxxsupport/ls_arr.h:219-226, for a size that is not negative: nothing happens if the size
is the present one, otherwise new storage without values. -/
def alloc (d : List (Option V)) (n : ℕ) : List (Option V) :=
  if n = d.length then d else List.replicate n none

/-- `Alm::Set(lmax, mmax)`, levels/Healpix_cxx/ls_alm.h:101-105: the limits are changed first, then `Num_Alms` may throw;
then the storage is replaced.  With a negative size the old storage is released and the allocation fails; asked for
the same negative size again, `alloc` finds it to be the present one and does nothing. -/
def set (o : Obj V) (l m : ℤ) : Res (Obj V × Option String) :=
  match numAlms l m with
  | .ok n =>
    match o.lost with
    | some s =>
      if n = s then ok ({ o with base := { o.base with lmax := l, mmax := m } }, none)
      else ub "storage released twice"
    | none =>
      if n < 0 then ok (⟨{ o.base with lmax := l, mmax := m }, some n⟩, some "bad_alloc")
      else ok (⟨⟨l, m, alloc o.base.alm n.toNat⟩, none⟩, none)
  | _ => ok ({ o with base := { o.base with lmax := l, mmax := m } }, some "mmax must not be larger than lmax")

/-- `Alm::Set(data, lmax, mmax)`, levels/Healpix_cxx/ls_alm.h:109-114: the assertion comes before any change; then the
old storage is released and that of `data` taken over (levels/cxxsupport/ls_arr.h:284-292). -/
def setArr (o : Obj V) (data : List V) (l m : ℤ) : Res (Obj V × Option String) :=
  match numAlms l m with
  | .ok n =>
    if n = data.length then do
      destroy o
      ok (⟨⟨l, m, data.map some⟩, none⟩, none)
    else ok (o, some "wrong array size")
  | _ => ok (o, some "mmax must not be larger than lmax")

/-- `SetToZero`, levels/Healpix_cxx/ls_alm.h:117-118. -/
def toZero (A : Arith V K) (a : Alm (Option V)) : Alm (Option V) :=
  { a with alm := a.alm.map (fun _ => some A.zero) }

/-- `Scale(factor)`, levels/Healpix_cxx/ls_alm.h:121-122. -/
def scale (A : Arith V K) (a : Alm (Option V)) (f : K) : Alm (Option V) :=
  { a with alm := a.alm.map (fun x => x.map (fun v => A.mul v f)) }

/-- The double loop of `ScaleL` and `ScaleM`, levels/Healpix_cxx/ls_alm.h:129-131 and 139-141: `fac l m` reads the
factor. -/
def scaleLoop (A : Arith V K) (a : Alm (Option V)) (fac : ℕ → ℕ → Res K) : Res (Alm (Option V)) :=
  forN (a.mmax + 1).toNat (fun m s =>
    forN (a.lmax + 1 - m).toNat (fun k (t : Alm (Option V)) => do
      let x ← t.get ((m : ℤ) + k) m
      let f ← fac (m + k) m
      t.put ((m : ℤ) + k) m (x.map (fun v => A.mul v f))) s) a

/-- `ScaleL(factor)`, levels/Healpix_cxx/ls_alm.h:124-132. `tsize(lmax)` of a negative limit is huge. -/
def scaleL (A : Arith V K) (a : Alm (Option V)) (fs : List K) : Res (Alm (Option V) × Option String) :=
  if 0 ≤ a.lmax ∧ a.lmax < fs.length then do
    let b ← scaleLoop A a (fun l _ => rd fs l)
    ok (b, none)
  else ok (a, some "alm.ScaleL: factor array too short")

/-- `ScaleM(factor)`, levels/Healpix_cxx/ls_alm.h:134-142. -/
def scaleM (A : Arith V K) (a : Alm (Option V)) (fs : List K) : Res (Alm (Option V) × Option String) :=
  if 0 ≤ a.mmax ∧ a.mmax < fs.length then do
    let b ← scaleLoop A a (fun _ m => rd fs m)
    ok (b, none)
  else ok (a, some "alm.ScaleM: factor array too short")

/-- `Add(num)`, levels/Healpix_cxx/ls_alm.h:144-145: the first element of the storage. -/
def addNum (A : Arith V K) (a : Alm (Option V)) (x : K) : Res (Alm (Option V)) := do
  let v ← rd a.alm 0
  let d ← wr a.alm 0 (v.map (fun v => A.addK v x))
  ok { a with alm := d }

/-- Both operands of a sum of elements. -/
def addO (A : Arith V K) (x y : Option V) : Option V :=
  match x, y with
  | some x, some y => some (A.add x y)
  | _, _ => none

/-- One element of the loop of `Add(other)`, levels/Healpix_cxx/ls_alm.h:174-175; `self`: `other` is the object
itself. -/
def addStep (A : Arith V K) (self : Bool) (b : List (Option V)) (k : ℕ) (t : List (Option V)) :
    Res (List (Option V)) := do
  let x ← rd t k
  let y ← rd (if self then t else b) k
  wr t k (addO A x y)

/-- `Add(other)`, levels/Healpix_cxx/ls_alm.h:171-176, and `conformable` (61-62). -/
def add (A : Arith V K) (self : Bool) (a b : Alm (Option V)) : Res (Alm (Option V) × Option String) :=
  if a.lmax = b.lmax ∧ a.mmax = b.mmax then do
    let d ← forN a.alm.length (addStep A self b.alm) a.alm
    ok ({ a with alm := d }, none)
  else ok (a, some "A_lm are not conformable")

/-- An object replaced. -/
def upd (e : Env V) (i : ℕ) (o : Option (Obj V)) : Env V := Function.update e i o

/-- One call: the new state and the exception it ends with. -/
def step (A : Arith V K) (e : Env V) : Op V K → Res (Env V × Option String)
  | .create i l m => match e i with
    | some _ => ub "name in use"
    | none => ok (upd e i (create l m).1, (create (V := V) l m).2)
  | .destroy i => do
    let o ← obj e i
    destroy o
    ok (upd e i none, none)
  | .set i l m => do
    let o ← obj e i
    let r ← set o l m
    ok (upd e i (some r.1), r.2)
  | .setArr i data l m => do
    let o ← obj e i
    let r ← setArr o data l m
    ok (upd e i (some r.1), r.2)
  | .toZero i => do
    let o ← obj e i
    let a ← live o
    ok (upd e i (some ⟨toZero A a, none⟩), none)
  | .scale i f => do
    let o ← obj e i
    let a ← live o
    ok (upd e i (some ⟨scale A a f, none⟩), none)
  | .scaleL i fs => do
    let o ← obj e i
    let a ← live o
    let r ← scaleL A a fs
    ok (upd e i (some ⟨r.1, none⟩), r.2)
  | .scaleM i fs => do
    let o ← obj e i
    let a ← live o
    let r ← scaleM A a fs
    ok (upd e i (some ⟨r.1, none⟩), r.2)
  | .addNum i x => do
    let o ← obj e i
    let a ← live o
    let b ← addNum A a x
    ok (upd e i (some ⟨b, none⟩), none)
  | .put i l m v => do
    let o ← obj e i
    let a ← live o
    let b ← a.put l m (some v)
    ok (upd e i (some ⟨b, none⟩), none)
  | .add i j => do
    let o ← obj e i
    let p ← obj e j
    let a ← live o
    let b ← live p
    let r ← add A (i == j) a b
    ok (upd e i (some ⟨r.1, none⟩), r.2)
  -- `swap`, levels/Healpix_cxx/ls_alm.h:164-168, alm.cc:47-52
  | .swap i j => do
    let o ← obj e i
    let p ← obj e j
    ok (upd (upd e i (some p)) j (some o), none)
  -- the implicit assignment: limits, then `arrT::operator=` (levels/cxxsupport/ls_arr.h:253-259)
  | .assign i j => do
    let o ← obj e i
    let p ← obj e j
    let _ ← live o
    let b ← live p
    ok (upd e i (some ⟨b, none⟩), none)

/-- A history: the calls one after the other, the exceptions collected. -/
def run (A : Arith V K) : List (Op V K) → Env V → Res (Env V × List (Option String))
  | [], e => ok (e, [])
  | op :: ops, e => do
    let r ← step A e op
    let q ← run A ops r.1
    ok (q.1, r.2 :: q.2)

/-- `alm(l, m)` as a value, levels/Healpix_cxx/ls_alm.h:146-150. -/
def read (e : Env V) (i : ℕ) (l m : ℤ) : Res (Option V) := do
  let o ← obj e i
  let a ← live o
  a.get l m

/-- `Lmax()`, `Mmax()`, levels/Healpix_cxx/ls_alm.h:56-59. -/
def limits (e : Env V) (i : ℕ) : Res (ℤ × ℤ) := do
  let o ← obj e i
  ok (o.base.lmax, o.base.mmax)

end Verif.AlmHist
