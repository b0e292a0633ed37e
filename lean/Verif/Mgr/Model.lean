import Verif.Base.Res
import Mathlib.Data.List.OfFn
import Mathlib.Tactic.Common

/-!
# MPI_Manager

Model of levels/cxxsupport/ls_mpi_support.h and mpi_support.cc for the MPI build.  (The scalar code, `USE_MPI` not defined, is not
compilable: mpi_support.cc:187-188 defines a constructor that the class does not declare, ls_mpi_support.h:74.)

A rank is a program that is finished or waits in an MPI operation.  `Runs p x`: the job with program `p r` on rank `r` ends and rank
`r` ends with outcome `x r`; a step is possible only if all ranks wait in the same operation.  The meaning of the MPI operations
(`Step`) is that of the MPI standard (trusted).  An `arr<T>` is a list; an array without elements has the address 0
(levels/cxxsupport/ls_alloc_utils.h:43), arrays with elements have different addresses; `in` and `out` are different objects.
Freshly allocated arrays contain `junk`.  `int` has 32 bits.  Message sizes of `allgather`, `allreduce`, `bcast` and `all2all` are
taken to be below `2^31`.
-/

namespace Verif.Mgr
open Verif Res

/-- Requests. -/
inductive Req (α : Type) where
  /-- `MPI_Gather` of one int to rank 0 -/
  | gather (x : ℤ)
  /-- `MPI_Gatherv` to rank 0; counts, displacements and receive buffer of the root -/
  | gatherv (xs : List α) (recv : Option (List ℤ × List ℤ × List α))
  /-- `MPI_Allgather` -/
  | allgather (xs : List α)
  /-- `MPI_Allreduce` -/
  | allreduce (op : α → α → α) (xs : List α)
  /-- `MPI_Bcast` -/
  | bcast (root : ℕ) (xs : List α)
  /-- `MPI_Alltoall` with `c` elements per message -/
  | alltoall (c : ℕ) (xs : List α)
  /-- `MPI_Alltoall` of ints -/
  | alltoallInt (c : ℕ) (xs : List ℤ)
  /-- `MPI_Alltoallv` -/
  | alltoallv (buf : List α) (scounts sdispls : List ℤ) (out : List α) (rcounts rdispls : List ℤ)
  /-- `MPI_Gather` of one element -/
  | gatherOne (root : ℕ) (x : α)
  /-- `MPI_Reduce` -/
  | reduce (op : α → α → α) (root : ℕ) (xs : List α)
  /-- `MPI_Sendrecv` -/
  | sendrecv (dest src : ℕ) (xs : List α) (out : List α)

inductive Ans (α : Type) where
  | unit | ints (xs : List ℤ) | data (xs : List α)

/-- A rank. -/
inductive Prog (α β : Type) where
  | done (r : Res β)
  | call (q : Req α) (k : Ans α → Prog α β)

/-- Write of a segment at displacement `off` of a buffer. -/
def blit {α : Type} (buf : List α) (off : ℤ) (xs : List α) : Res (List α) :=
  if 0 ≤ off ∧ off.toNat + xs.length ≤ buf.length then ok (buf.take off.toNat ++ xs ++ buf.drop (off.toNat + xs.length))
  else ub "write outside the receive buffer"

/-- Writes of several segments. -/
def place {α : Type} : List α → List (ℤ × List α) → Res (List α)
  | buf, [] => ok buf
  | buf, (o, xs) :: l => blit buf o xs >>= fun b => place b l

/-- Read of `cnt` elements at displacement `off`. -/
def slice {α : Type} (buf : List α) (off cnt : ℤ) : Res (List α) :=
  if 0 ≤ off ∧ 0 ≤ cnt ∧ off.toNat + cnt.toNat ≤ buf.length then ok ((buf.drop off.toNat).take cnt.toNat)
  else ub "read outside the send buffer"

/-- Element-wise combination of the arrays of all ranks, in rank order. -/
def combine {α : Type} (op : α → α → α) : List (List α) → List α
  | [] => []
  | [x] => x
  | x :: y :: l => List.zipWith op x (combine op (y :: l))

/-- The MPI operations (MPI standard). -/
inductive Step {α : Type} {n : ℕ} : (Fin n → Req α) → (Fin n → Ans α) → Prop where
  | gather (x : Fin n → ℤ) :
      Step (fun r => .gather (x r)) (fun r => if r.val = 0 then .ints (List.ofFn x) else .unit)
  | gatherv (xs : Fin n → List α) (counts displs : List ℤ) (buf out : List α)
      (hc : counts = List.ofFn (fun r => ((xs r).length : ℤ))) (hd : displs.length = n)
      (ho : place buf (displs.zip (List.ofFn xs)) = ok out) :
      Step (fun r => .gatherv (xs r) (if r.val = 0 then some (counts, displs, buf) else none))
        (fun r => if r.val = 0 then .data out else .unit)
  | allgather (xs : Fin n → List α) (c : ℕ) (hc : ∀ r, (xs r).length = c) :
      Step (fun r => .allgather (xs r)) (fun _ => .data (List.ofFn xs).flatten)
  | allreduce (op : α → α → α) (xs : Fin n → List α) (c : ℕ) (hc : ∀ r, (xs r).length = c) :
      Step (fun r => .allreduce op (xs r)) (fun _ => .data (combine op (List.ofFn xs)))
  | bcast (root : Fin n) (xs : Fin n → List α) (c : ℕ) (hc : ∀ r, (xs r).length = c) :
      Step (fun r => .bcast root.val (xs r)) (fun _ => .data (xs root))
  | alltoall (c : ℕ) (xs : Fin n → List α) (hc : ∀ r, (xs r).length = n * c) :
      Step (fun r => .alltoall c (xs r)) (fun r => .data (List.ofFn (fun s => ((xs s).drop (r.val * c)).take c)).flatten)
  | alltoallInt (c : ℕ) (xs : Fin n → List ℤ) (hc : ∀ r, (xs r).length = n * c) :
      Step (fun r => .alltoallInt c (xs r)) (fun r => .ints (List.ofFn (fun s => ((xs s).drop (r.val * c)).take c)).flatten)
  | alltoallv (buf : Fin n → List α) (sc sd rc rd : Fin n → List ℤ) (out res : Fin n → List α) (seg : Fin n → Fin n → List α)
      (hs : ∀ s r : Fin n, ∃ o c, (sd s)[r.val]? = some o ∧ (sc s)[r.val]? = some c ∧ slice (buf s) o c = ok (seg s r))
      (hm : ∀ s r : Fin n, (rc r)[s.val]? = some ((seg s r).length : ℤ))
      (hd : ∀ r, (rd r).length = n)
      (ho : ∀ r, place (out r) ((rd r).zip (List.ofFn (fun s => seg s r))) = ok (res r)) :
      Step (fun r => .alltoallv (buf r) (sc r) (sd r) (out r) (rc r) (rd r)) (fun r => .data (res r))
  | gatherOne (root : Fin n) (x : Fin n → α) :
      Step (fun r => .gatherOne root.val (x r)) (fun r => if r = root then .data (List.ofFn x) else .unit)
  | reduce (op : α → α → α) (root : Fin n) (xs : Fin n → List α) (c : ℕ) (hc : ∀ r, (xs r).length = c) :
      Step (fun r => .reduce op root.val (xs r)) (fun r => if r = root then .data (combine op (List.ofFn xs)) else .unit)
  | sendrecv (dest src : Fin n → Fin n) (xs out : Fin n → List α) (hp : ∀ r, dest (src r) = r)
      (hl : ∀ r, (xs (src r)).length = (out r).length) :
      Step (fun r => .sendrecv (dest r).val (src r).val (xs r) (out r)) (fun r => .data (xs (src r)))

/-- The job ends with outcome `x r` on rank `r`. -/
inductive Runs {α β : Type} {n : ℕ} : (Fin n → Prog α β) → (Fin n → Res β) → Prop where
  | fin (x : Fin n → Res β) : Runs (fun r => .done (x r)) x
  | step (q : Fin n → Req α) (k : Fin n → Ans α → Prog α β) (a : Fin n → Ans α) (x : Fin n → Res β) :
      Step q a → Runs (fun r => k r (a r)) x → Runs (fun r => .call (q r) (k r)) x

/-! ## the library -/

/-- `int x = expression of type tsize`. -/
def int32 (n : ℕ) : ℤ := (n + 2 ^ 31 : ℤ) % 2 ^ 32 - 2 ^ 31

/-- `int` addition. -/
def addInt (a b : ℤ) : Res ℤ := if -2 ^ 31 ≤ a + b ∧ a + b < 2 ^ 31 then ok (a + b) else ub "signed overflow"

/-- `assert_unequal(in, out)`, mpi_support.cc:55-56, for two arrays: their addresses are equal iff both have no elements. -/
def unequal {α β : Type} (a : List α) (b : List β) : Res Unit :=
  if a = [] ∧ b = [] then throw "input and output buffers must not be identical" else ok ()

/-- `nval_tot=0; for … nval_tot+=nval[i]`, mpi_support.cc:106-108. -/
def sumFrom : ℤ → List ℤ → Res ℤ
  | a, [] => ok a
  | a, x :: l => addInt a x >>= fun b => sumFrom b l

/-- `offset[0]=0; for i>=1: offset[i]=offset[i-1]+nval[i-1]`, mpi_support.cc:110-112 and 122-127. -/
def prefixes : ℤ → List ℤ → Res (List ℤ)
  | _, [] => ok []
  | a, [_] => ok [a]
  | a, x :: y :: l => addInt a x >>= fun b => prefixes b (y :: l) >>= fun t => ok (a :: t)

/-- `arr<T>::alloc` of `sz` elements given by an `int` (a negative number becomes a huge size). -/
def allocInt {α : Type} (junk : α) (sz : ℤ) : Res (List α) :=
  if sz < 0 then throw "bad_alloc" else ok (List.replicate sz.toNat junk)

variable {α : Type}

/-- Continue with the outcome of a C++ computation. -/
def lift {β γ : Type} (x : Res β) (k : β → Prog α γ) : Prog α γ :=
  match x with
  | .ok b => k b
  | .throw e => .done (throw e)
  | .ub e => .done (ub e)

/-- `gatherv_helper1_m`, mpi_support.cc:102-113, with `gather_m`, ls_mpi_support.h:137-142. -/
def gathervHelper {β : Type} (nvalLoc : ℤ) (k : List ℤ × List ℤ × ℤ → Prog α β) : Prog α β :=
  .call (.gather nvalLoc) fun
    | .ints nval => lift (sumFrom 0 nval >>= fun tot => prefixes 0 nval >>= fun off => ok (nval, off, tot)) k
    | _ => .done (ub "answer")

/-- The elements that an MPI operation with `cnt` elements reads from the start of a buffer. -/
def sent (cnt : ℤ) (xs : List α) : Res (List α) := slice xs 0 cnt

/-- `gatherv_m(in, out)`, ls_mpi_support.h:146-154, `gathervRawVoid`, mpi_support.cc:234-241; the result is `out`. -/
def gathervM (junk : α) (inp : List α) : Prog α (List α) :=
  gathervHelper (int32 inp.length) fun (nval, off, tot) =>
    lift (allocInt junk tot >>= fun out => unequal inp out >>= fun _ => sent (int32 inp.length) inp >>= fun xs => ok (out, xs))
      fun (out, xs) => .call (.gatherv xs (some (nval, off, out))) fun
        | .data res => .done (ok res)
        | _ => .done (ub "answer")

/-- `gatherv_s(in)`, ls_mpi_support.h:155-160: `out` is a null pointer; the argument `out` of `gatherv` is not touched. -/
def gathervS (inp out0 : List α) : Prog α (List α) :=
  .call (.gather (int32 inp.length)) fun _ =>
    lift (unequal inp ([] : List α) >>= fun _ => sent (int32 inp.length) inp) fun xs =>
      .call (.gatherv xs none) fun _ => .done (ok out0)

/-- `gatherv(in, out)`, ls_mpi_support.h:162-163: the result is the value of `out` after the call (`out0` before). -/
def gatherv (junk : α) (rank : ℕ) (inp out0 : List α) : Prog α (List α) :=
  if rank = 0 then gathervM junk inp else gathervS inp out0

/-- `allgather(in, out)` for arrays, ls_mpi_support.h:208-212, mpi_support.cc:243-249. -/
def allgather (junk : α) (n : ℕ) (inp : List α) : Prog α (List α) :=
  lift (unequal inp (List.replicate (n * inp.length) junk)) fun _ =>
    .call (.allgather inp) fun
      | .data res => .done (ok res)
      | _ => .done (ub "answer")

/-- `allreduce(in, out, op)` for arrays, ls_mpi_support.h:224-229, mpi_support.cc:253-258. -/
def allreduce (junk : α) (op : α → α → α) (inp : List α) : Prog α (List α) :=
  lift (unequal inp (List.replicate inp.length junk)) fun _ =>
    .call (.allreduce op inp) fun
      | .data res => .done (ok res)
      | _ => .done (ub "answer")

/-- `bcast(data, root)` for arrays, ls_mpi_support.h:245-246, mpi_support.cc:267-268. -/
def bcast (root : ℕ) (data : List α) : Prog α (List α) :=
  .call (.bcast root data) fun
    | .data res => .done (ok res)
    | _ => .done (ub "answer")

/-- `all2all(in, out)`, ls_mpi_support.h:257-261, mpi_support.cc:270-279. -/
def all2all (junk : α) (n : ℕ) (inp : List α) : Prog α (List α) :=
  lift (unequal inp (List.replicate inp.length junk)) fun _ =>
    if inp.length % n ≠ 0 then .done (throw "array size is not divisible by number of ranks")
    else .call (.alltoall (inp.length / n) inp) fun
      | .data res => .done (ok res)
      | _ => .done (ub "answer")

/-- `all2all` for `arr<int>`, as used by `all2allv_easy_prep` (mpi_support.cc:121). -/
def all2allInt {β : Type} (n : ℕ) (inp : List ℤ) (k : List ℤ → Prog α β) : Prog α β :=
  lift (unequal inp (List.replicate inp.length (0 : ℤ))) fun _ =>
    if inp.length % n ≠ 0 then .done (throw "array size is not divisible by number of ranks")
    else .call (.alltoallInt (inp.length / n) inp) fun
      | .ints res => k res
      | _ => .done (ub "answer")

/-- Last element of an array (`a[n-1]`). -/
def lastOf (a : List ℤ) : Res ℤ := match a.getLast? with | some x => ok x | none => ub "index"

/-- `all2allv_easy_prep`, mpi_support.cc:115-129; the continuation gets `disin`, `numout`, `disout`. -/
def easyPrep {β : Type} (n insz : ℕ) (numin : List ℤ) (k : List ℤ × List ℤ × List ℤ → Prog α β) : Prog α β :=
  if numin.length ≠ n then .done (throw "array size mismatch")
  else all2allInt n numin fun numout =>
    lift (prefixes 0 numin >>= fun disin => prefixes 0 numout >>= fun disout =>
      lastOf disin >>= fun a => lastOf numin >>= fun b => addInt a b >>= fun s =>
      if (insz : ℤ) = s then ok (disin, numout, disout) else throw "incorrect array size") k

/-- `all2allv_easy(in, numin, out, numout)`, ls_mpi_support.h:276-284, `all2allvRawVoid`, mpi_support.cc:281-290: the result is
`(out, numout)`. -/
def all2allvEasy (junk : α) (n : ℕ) (inp : List α) (numin : List ℤ) : Prog α (List α × List ℤ) :=
  easyPrep n inp.length numin fun (disin, numout, disout) =>
    lift (lastOf disout >>= fun a => lastOf numout >>= fun b => addInt a b >>= fun s => allocInt junk s >>= fun out =>
        unequal inp out >>= fun _ => ok out) fun out =>
      .call (.alltoallv inp numin disin out numout disout) fun
        | .data res => .done (ok (res, numout))
        | _ => .done (ub "answer")

/-- `sendrecv(sendbuf, dest, recvbuf, src)`, ls_mpi_support.h:115-120, mpi_support.cc:207-216: the result is `recvbuf`. -/
def sendrecv (rank dest src : ℕ) (inp out : List α) : Prog α (List α) :=
  if rank ≠ src ∨ rank ≠ dest then .done (ok out)
  else lift (unequal inp out) fun _ => .call (.sendrecv dest src inp out) fun
    | .data res => .done (ok res)
    | _ => .done (ub "answer")

/-- `sendrecv_replace(data, dest, src)`, ls_mpi_support.h:130-132, mpi_support.cc:217-225: the result is `data`. -/
def sendrecvReplace (rank dest src : ℕ) (data : List α) : Prog α (List α) :=
  if dest = src then .done (ok data)
  else if rank ≠ src ∨ rank ≠ dest then .done (ok data)
  else .call (.sendrecv dest src data data) fun
    | .data res => .done (ok res)
    | _ => .done (ub "answer")

end Verif.Mgr
