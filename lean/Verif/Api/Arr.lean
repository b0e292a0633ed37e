import Mathlib.Logic.Function.Basic
import Mathlib.Data.List.Basic

/-!
# The array container `arrT` on a heap with explicit ownership

Models `levels/cxxsupport/ls_arr.h:179-299` (`arrT`) on top of
`levels/cxxsupport/ls_alloc_utils.h:40-73` (`normalAlloc__`, `alignAlloc__`).

The heap is a partial map from addresses to blocks; an allocation always returns a fresh
address (simplification: addresses of freed blocks are never re-used, so that every use of a
dangling pointer is visible as undefined behaviour).  An element is `Option T`; `none` is an
indeterminate value (`new T[sz]` of a plain type does not initialise).
A method can return, throw (the object state survives a C++ exception), or be undefined.
-/

namespace Verif.Arr

variable {T : Type}

/-- What a heap block is: obtained from the allocator, already freed, or memory supplied by the
caller (`arrT(T *ptr, tsize sz)`). -/
inductive Kind where
  | live | freed | ext
  deriving DecidableEq, Repr

structure Block (T : Type) where
  kind : Kind
  data : List (Option T)

/-- The members of `arrT`: `s`, `d` (`arr_ref`, ls_arr.h:51-52) and `own` (ls_arr.h:183). -/
structure Obj where
  s : Nat
  d : Option Nat
  own : Bool
  deriving DecidableEq, Repr

/-- Program state: heap and the array objects alive, by name. -/
structure St (T : Type) where
  heap : Nat → Option (Block T)
  next : Nat
  objs : Nat → Option Obj

/-- Outcome of a method: normal return, C++ exception (with the state left behind) or UB. -/
inductive Out (σ : Type) (α : Type) where
  | ok (a : α) (s : σ)
  | exc (s : σ)
  | ub (why : String)

def M (T : Type) (α : Type) : Type := St T → Out (St T) α

def M.bind {α β : Type} (x : M T α) (f : α → M T β) : M T β := fun st =>
  match x st with
  | .ok a s => f a s
  | .exc s => .exc s
  | .ub w => .ub w

instance : Monad (M T) where
  pure a := fun st => .ok a st
  bind := M.bind

def ubM {α : Type} (w : String) : M T α := fun _ => .ub w

/-- `storageManager::alloc` (ls_alloc_utils.h:43, 50-67); `oom` says whether the allocator fails
(`std::bad_alloc`, or the assertion in `alignAlloc__`).  `sz = 0` gives the null pointer. -/
def stmAlloc (oom : Bool) (sz : Nat) : M T (Option Nat) := fun st =>
  if sz = 0 then .ok none st
  else if oom then .exc st
  else .ok (some st.next)
    { st with heap := Function.update st.heap st.next (some ⟨.live, List.replicate sz none⟩)
              next := st.next + 1 }

/-- `storageManager::dealloc` (ls_alloc_utils.h:44, 68-72): `delete[]` of a pointer that is not a
live allocation is undefined. -/
def stmDealloc : Option Nat → M T Unit
  | none => fun st => .ok () st
  | some p => fun st =>
    match st.heap p with
    | some ⟨.live, _⟩ =>
      .ok () { st with heap := Function.update st.heap p (some ⟨.freed, []⟩) }
    | _ => .ub "delete[] of a pointer that is not a live allocation"

/-- `d[k]` as a value. -/
def load (d : Option Nat) (k : Nat) : M T (Option T) := fun st =>
  match d with
  | none => .ub "null pointer"
  | some p =>
    match st.heap p with
    | some ⟨.freed, _⟩ => .ub "use after free"
    | some ⟨_, xs⟩ => if h : k < xs.length then .ok xs[k] st else .ub "out of bounds"
    | none => .ub "wild pointer"

/-- `d[k] = v`. -/
def store (d : Option Nat) (k : Nat) (v : Option T) : M T Unit := fun st =>
  match d with
  | none => .ub "null pointer"
  | some p =>
    match st.heap p with
    | some ⟨.freed, _⟩ => .ub "use after free"
    | some ⟨kd, xs⟩ =>
      if k < xs.length then
        .ok () { st with heap := Function.update st.heap p (some ⟨kd, xs.set k v⟩) }
      else .ub "out of bounds"
    | none => .ub "wild pointer"

/-- `for (tsize m=0; m<n; ++m) body(m);` -/
def loop : Nat → (Nat → M T Unit) → M T Unit
  | 0, _ => pure ()
  | n + 1, f => do loop n f; f n

/-- The members of object `i` (`*this`). -/
def getO (i : Nat) : M T Obj := fun st =>
  match st.objs i with
  | some o => .ok o st
  | none => .ub "use of an object outside its lifetime"

def setO (i : Nat) (o : Obj) : M T Unit := fun st =>
  .ok () { st with objs := Function.update st.objs i (some o) }

/-- `arr_ref::fill` (ls_arr.h:62-63). -/
def fill (i : Nat) (v : T) : M T Unit := do
  let o ← getO i
  loop o.s fun m => store o.d m (some v)

/-- `reset()` (ls_arr.h:185-186). -/
def reset (i : Nat) : M T Unit := setO i ⟨0, none, true⟩

/-- `arrT()` (ls_arr.h:190). -/
def ctor0 (i : Nat) : M T Unit := setO i ⟨0, none, true⟩

/-- `arrT(tsize sz)` (ls_arr.h:192). -/
def ctor (oom : Bool) (i sz : Nat) : M T Unit := do
  let d ← stmAlloc oom sz
  setO i ⟨sz, d, true⟩

/-- `arrT(tsize sz, const T &inival)` (ls_arr.h:195-196). -/
def ctorFill (oom : Bool) (i sz : Nat) (v : T) : M T Unit := do
  let d ← stmAlloc oom sz
  setO i ⟨sz, d, true⟩
  fill i v

/-- `arrT(T *ptr, tsize sz)` (ls_arr.h:208). -/
def ctorView (i p sz : Nat) : M T Unit := setO i ⟨sz, some p, false⟩

/-- `for (m<s) this->d[m] = orig.d[m]` (ls_arr.h:212, 257). -/
def copyLoop (s : Nat) (dst src : Option Nat) : M T Unit :=
  loop s fun m => do
    let v ← load src m
    store dst m v

/-- `arrT(const arrT &orig)` (ls_arr.h:211-212). -/
def ctorCopy (oom : Bool) (i j : Nat) : M T Unit := do
  let o ← getO j
  let d ← stmAlloc oom o.s
  setO i ⟨o.s, d, true⟩
  copyLoop o.s d o.d

/-- `if (own) stm.dealloc(this->d)`. -/
def freeIfOwn (o : Obj) : M T Unit := if o.own then stmDealloc o.d else pure ()

/-- End of the lifetime of object `i`. -/
def endO (i : Nat) : M T Unit := fun st =>
  .ok () { st with objs := Function.update st.objs i none }

/-- `~arrT()` (ls_arr.h:214). -/
def dtor (i : Nat) : M T Unit := do
  let o ← getO i
  freeIfOwn o
  endO i

/-- `alloc(sz)` (ls_arr.h:219-226).  The assignment `this->s = sz` takes place before
`stm.alloc` can throw. -/
def alloc (oom : Bool) (i sz : Nat) : M T Unit := do
  let o ← getO i
  if sz = o.s then pure ()
  else do
    freeIfOwn o
    setO i ⟨sz, o.d, o.own⟩
    let d ← stmAlloc oom sz
    setO i ⟨sz, d, true⟩

/-- `allocAndFill(sz, inival)` (ls_arr.h:230-231). -/
def allocAndFill (oom : Bool) (i sz : Nat) (v : T) : M T Unit := do
  alloc oom i sz
  fill i v

/-- `dealloc()` (ls_arr.h:234). -/
def dealloc (i : Nat) : M T Unit := do
  let o ← getO i
  freeIfOwn o
  reset i

/-- `resize(sz)` (ls_arr.h:239-250). -/
def resize (oom : Bool) (i sz : Nat) : M T Unit := do
  let o ← getO i
  if sz = o.s then pure ()
  else do
    let tmp ← stmAlloc oom sz
    copyLoop (min sz o.s) tmp o.d
    freeIfOwn o
    setO i ⟨sz, tmp, true⟩

/-- `operator=(const arrT &orig)` (ls_arr.h:253-259). -/
def assign (oom : Bool) (i j : Nat) : M T Unit := do
  if i = j then pure ()
  else do
    let oj ← getO j
    alloc oom i oj.s
    let oi ← getO i
    copyLoop oi.s oi.d oj.d

/-- `copyFrom(std::vector)` / `copyFromPtr(ptr, sz)` (ls_arr.h:262-266, 276-280); the source is
modelled by its contents. -/
def copyFrom (oom : Bool) (i : Nat) (xs : List (Option T)) : M T Unit := do
  alloc oom i xs.length
  let o ← getO i
  loop o.s fun m => store o.d m (xs[m]?.join)

/-- `transfer(arrT &other)` (ls_arr.h:284-291). -/
def transfer (i j : Nat) : M T Unit := do
  let oi ← getO i
  freeIfOwn oi
  let oj ← getO j
  setO i oj
  reset j

/-- `swap(arrT &other)` (ls_arr.h:293-298). -/
def swap (i j : Nat) : M T Unit := do
  let oi ← getO i
  let oj ← getO j
  setO i oj
  setO j oi

/-- `a[k] = v` through `operator[]` (ls_arr.h:66). -/
def write (i k : Nat) (v : T) : M T Unit := do
  let o ← getO i
  store o.d k (some v)

/-- `a[k]` as a value (ls_arr.h:68). -/
def read (i k : Nat) : M T (Option T) := do
  let o ← getO i
  load o.d k

/-! ## Programs -/

/-- A statement of a program that uses array objects named by numbers; `oom` tells whether the
memory allocator would fail during this statement. -/
inductive Op (T : Type) where
  | ctor0 (i : Nat)
  | ctor (oom : Bool) (i sz : Nat)
  | ctorFill (oom : Bool) (i sz : Nat) (v : T)
  | ctorView (i p sz : Nat)
  | ctorCopy (oom : Bool) (i j : Nat)
  | dtor (i : Nat)
  | alloc (oom : Bool) (i sz : Nat)
  | allocAndFill (oom : Bool) (i sz : Nat) (v : T)
  | dealloc (i : Nat)
  | resize (oom : Bool) (i sz : Nat)
  | assign (oom : Bool) (i j : Nat)
  | copyFrom (oom : Bool) (i : Nat) (xs : List (Option T))
  | transfer (i j : Nat)
  | swap (i j : Nat)
  | write (i k : Nat) (v : T)
  | fill (i : Nat) (v : T)

def step : Op T → M T Unit
  | .ctor0 i => Arr.ctor0 i
  | .ctor oom i sz => Arr.ctor oom i sz
  | .ctorFill oom i sz v => Arr.ctorFill oom i sz v
  | .ctorView i p sz => Arr.ctorView i p sz
  | .ctorCopy oom i j => Arr.ctorCopy oom i j
  | .dtor i => Arr.dtor i
  | .alloc oom i sz => Arr.alloc oom i sz
  | .allocAndFill oom i sz v => Arr.allocAndFill oom i sz v
  | .dealloc i => Arr.dealloc i
  | .resize oom i sz => Arr.resize oom i sz
  | .assign oom i j => Arr.assign oom i j
  | .copyFrom oom i xs => Arr.copyFrom oom i xs
  | .transfer i j => Arr.transfer i j
  | .swap i j => Arr.swap i j
  | .write i k v => Arr.write i k v
  | .fill i v => Arr.fill i v

/-- Run a program; an exception is caught after the statement that raised it and the program
goes on.  The result lists, per statement, whether it threw; `none` is undefined behaviour. -/
def run : List (Op T) → St T → Option (St T × List Bool)
  | [], st => some (st, [])
  | op :: ops, st =>
    match step op st with
    | .ok _ st' => (run ops st').map fun r => (r.1, false :: r.2)
    | .exc st' => (run ops st').map fun r => (r.1, true :: r.2)
    | .ub _ => none

/-- The start: nothing allocated, no objects. -/
def St.init : St T := ⟨fun _ => none, 0, fun _ => none⟩

/-- The contents of object `i` as the public interface shows them: `size()` and `operator[]`. -/
def contents (st : St T) (i : Nat) : Option (List (Option T)) :=
  match st.objs i with
  | none => none
  | some o =>
    match o.d with
    | none => some (List.replicate o.s none)
    | some p =>
      match st.heap p with
      | some b => some (b.data.take o.s)
      | none => none

end Verif.Arr
