import Verif.Base.Res
import Mathlib.Tactic.Common
import Mathlib.Data.List.Basic
import Mathlib.Data.List.Range

/-!
# SPMD programs

A rank of an MPI job is a resumption: it is either finished (with a C++ outcome) or blocked in
a collective operation with a request and a continuation.  `run` advances all ranks together: one
step is possible iff *all* ranks wait in matching collectives.  Otherwise (a rank has already
returned or thrown, the kinds differ, or the counts do not match) the job is `stuck`: this is what
a deadlock / MPI error is in the model.

The collectives are those used by `convolver::convolve` and callees
(src/conviqt_math.cpp:1479-1672) through `levels/cxxsupport/ls_mpi_support.h`; their meaning
is that of the MPI standard (trusted).
-/

namespace Verif.Spmd
open Verif Res

/-- Operations of the reductions of `timing_line` (`MPI_Manager::redOp`, levels/cxxsupport/ls_mpi_support.h:58). -/
inductive RedOp where
  | min | max | sum
  deriving DecidableEq

/-- Requests.  `α` is the element type of the typed messages. -/
inductive Coll (α : Type) where
  /-- `MPI_Barrier` -/
  | barrier
  /-- `MPI_Scan(…, MPI_LONG, MPI_SUM)` -/
  | scan (x : Int)
  /-- `MPI_Allreduce` of one integer, sum -/
  | sumInt (x : Int)
  /-- `MPI_Allreduce` of an integer array, element-wise sum -/
  | sumArr (xs : List Int)
  /-- `MPI_Allreduce` of a char array, bitwise or -/
  | borArr (xs : List Bool)
  /-- `MPI_Allgather` of a char array -/
  | gather (xs : List Bool)
  /-- `MPI_Alltoall`, one int for every destination -/
  | alltoall (xs : List Nat)
  /-- `MPI_Alltoallv`: one segment per destination, and the expected length per source -/
  | alltoallv (segs : List (List α)) (rcounts : List Nat)
  /-- `MPI_Bcast` of one int, root 0 (the value of the other ranks is ignored) -/
  | bcastInt (x : Int)
  /-- `MPI_Bcast` of a buffer, root 0; buffers of all ranks must have the same length -/
  | bcast (xs : List α)
  /-- `MPI_Reduce` to rank 0 or `MPI_Allreduce` (`all`) of one `long` (`isLong`) or `double` whose result is only printed -/
  | reduce (op : RedOp) (isLong all : Bool)

/-- Answers. -/
inductive Ans (α : Type) where
  | unit
  | int (x : Int)
  | ints (xs : List Int)
  | nats (xs : List Nat)
  | bools (xs : List Bool)
  | boolss (xs : List (List Bool))
  | data (xs : List (List α))

variable {α : Type}

namespace Coll
def isBarrier : Coll α → Bool | barrier => true | _ => false
def getScan : Coll α → Option Int | scan x => some x | _ => none
def getSumInt : Coll α → Option Int | sumInt x => some x | _ => none
def getSumArr : Coll α → Option (List Int) | sumArr x => some x | _ => none
def getBor : Coll α → Option (List Bool) | borArr x => some x | _ => none
def getGather : Coll α → Option (List Bool) | gather x => some x | _ => none
def getA2a : Coll α → Option (List Nat) | alltoall x => some x | _ => none
def getA2av : Coll α → Option (List (List α) × List Nat) | alltoallv s r => some (s, r) | _ => none
def getBcastInt : Coll α → Option Int | bcastInt x => some x | _ => none
def getBcast : Coll α → Option (List α) | bcast x => some x | _ => none
def isReduce (op : RedOp) (isLong all : Bool) : Coll α → Bool
  | reduce o l a => decide (o = op) && l == isLong && a == all | _ => false
end Coll

/-- element-wise sum of equally long arrays -/
def sumCols (xss : List (List Int)) (len : Nat) : List Int :=
  (List.range len).map (fun j => (xss.map (fun xs => xs.getD j 0)).sum)

/-- element-wise or -/
def orCols (xss : List (List Bool)) (len : Nat) : List Bool :=
  (List.range len).map (fun j => xss.any (fun xs => xs.getD j false))

/-- One global step: the answers of a collective for all ranks, `none` if the requests do not match. -/
def exec (cs : List (Coll α)) : Option (List (Ans α)) :=
  match cs.head? with
  | none => none
  | some .barrier => if cs.all Coll.isBarrier then some (cs.map (fun _ => .unit)) else none
  | some (.scan _) =>
    (cs.mapM Coll.getScan).map (fun xs =>
      (List.range cs.length).map (fun r => Ans.int (xs.take (r + 1)).sum))
  | some (.sumInt _) =>
    (cs.mapM Coll.getSumInt).map (fun xs => cs.map (fun _ => Ans.int xs.sum))
  | some (.sumArr ys) =>
    (cs.mapM Coll.getSumArr).bind (fun xss =>
      if xss.all (fun xs => xs.length == ys.length)
      then some (cs.map (fun _ => Ans.ints (sumCols xss ys.length))) else none)
  | some (.borArr ys) =>
    (cs.mapM Coll.getBor).bind (fun xss =>
      if xss.all (fun xs => xs.length == ys.length)
      then some (cs.map (fun _ => Ans.bools (orCols xss ys.length))) else none)
  | some (.gather ys) =>
    (cs.mapM Coll.getGather).bind (fun xss =>
      if xss.all (fun xs => xs.length == ys.length)
      then some (cs.map (fun _ => Ans.boolss xss)) else none)
  | some (.alltoall _) =>
    (cs.mapM Coll.getA2a).bind (fun xss =>
      if xss.all (fun xs => xs.length == cs.length)
      then some ((List.range cs.length).map (fun r => Ans.nats (xss.map (fun xs => xs.getD r 0))))
      else none)
  | some (.alltoallv _ _) =>
    (cs.mapM Coll.getA2av).bind (fun ps =>
      if ps.all (fun p => p.1.length == cs.length && p.2.length == cs.length) &&
         (List.range cs.length).all (fun r => (List.range cs.length).all (fun s =>
           ((ps.getD s ([], [])).1.getD r []).length == (ps.getD r ([], [])).2.getD s 0))
      then some ((List.range cs.length).map (fun r => Ans.data (ps.map (fun p => p.1.getD r []))))
      else none)
  | some (.bcastInt x) =>
    (cs.mapM Coll.getBcastInt).map (fun _ => cs.map (fun _ => Ans.int x))
  | some (.bcast ys) =>
    (cs.mapM Coll.getBcast).bind (fun xss =>
      if xss.all (fun xs => xs.length == ys.length)
      then some (cs.map (fun _ => Ans.data [ys])) else none)
  | some (.reduce op l a) =>
    if cs.all (Coll.isReduce op l a) then some (cs.map (fun _ => .unit)) else none

/-- A rank. -/
inductive Prog (α : Type) (β : Type u) where
  | done (r : Res β)
  | call (c : Coll α) (k : Ans α → Prog α β)

namespace Prog

def bind {β : Type u} {γ : Type v} : Prog α β → (β → Prog α γ) → Prog α γ
  | done (.ok b), f => f b
  | done (.throw m), _ => done (.throw m)
  | done (.ub w), _ => done (.ub w)
  | call c k, f => call c (fun a => bind (k a) f)

instance : Monad (Prog α) where
  pure b := done (.ok b)
  bind := Prog.bind

/-- local C++ code -/
def lift {β : Type u} (r : Res β) : Prog α β := done r

@[simp] theorem pure_def {β : Type} (b : β) : (pure b : Prog α β) = done (.ok b) := rfl
@[simp] theorem ok_bind {β γ : Type} (b : β) (f : β → Prog α γ) : (done (.ok b) >>= f) = f b := rfl
@[simp] theorem lift_ok_bind {β γ : Type} (b : β) (f : β → Prog α γ) :
    (lift (.ok b) >>= f) = f b := rfl
@[simp] theorem throw_bind {β γ : Type} (m) (f : β → Prog α γ) :
    ((done (.throw m) : Prog α β) >>= f) = done (.throw m) := rfl
@[simp] theorem ub_bind {β γ : Type} (m) (f : β → Prog α γ) :
    ((done (.ub m) : Prog α β) >>= f) = done (.ub m) := rfl
@[simp] theorem call_bind {β γ : Type} (c) (k : Ans α → Prog α β) (f : β → Prog α γ) :
    (call c k >>= f) = call c (fun a => k a >>= f) := rfl

theorem bind_assoc {β γ δ : Type} (p : Prog α β) (f : β → Prog α γ) (g : γ → Prog α δ) :
    (p >>= f >>= g) = (p >>= fun b => f b >>= g) := by
  induction p with
  | done r => cases r <;> rfl
  | call c k ih =>
    simp only [call_bind]
    congr 1
    funext a
    exact ih a

def getDone {β : Type u} : Prog α β → Option (Res β) | done r => some r | _ => none
def getCall {β : Type u} : Prog α β → Option (Coll α × (Ans α → Prog α β))
  | call c k => some (c, k) | _ => none

end Prog

open Prog

/-- Outcome of a job. -/
inductive Outcome (β : Type u) where
  /-- every rank returned or threw -/
  | finished (rs : List (Res β))
  /-- some ranks wait forever -/
  | stuck
  deriving Repr, DecidableEq

/-- The executor: first rank and remaining ranks. -/
def run {β : Type u} : Prog α β → List (Prog α β) → Outcome β
  | .done r, ps =>
    match ps.mapM getDone with
    | some rs => .finished (r :: rs)
    | none => .stuck
  | .call c k, ps =>
    match ps.mapM getCall with
    | none => .stuck
    | some cks =>
      match exec (c :: cks.map Prod.fst) with
      | some (a :: as) => run (k a) (List.zipWith (fun ck a => ck.2 a) cks as)
      | _ => .stuck

/-- A job of `n` ranks (`n ≥ 1`), rank `r` runs `P r`. -/
def runAll {β : Type u} (n : Nat) (P : Nat → Prog α β) : Outcome β :=
  run (P 0) ((List.range' 1 (n - 1)).map P)

/-! ## lemmas about the executor -/

theorem range_eq_cons {n : Nat} (hn : 1 ≤ n) : List.range n = 0 :: List.range' 1 (n - 1) := by
  obtain ⟨m, rfl⟩ : ∃ m, n = m + 1 := ⟨n - 1, by omega⟩
  rw [List.range_eq_range', List.range'_succ]; simp

theorem mapM_map_some {β γ δ : Type _} (g : γ → Option δ) (f : β → γ) (h : β → δ) (xs : List β)
    (hx : ∀ x ∈ xs, g (f x) = some (h x)) : (xs.map f).mapM g = some (xs.map h) := by
  induction xs with
  | nil => rfl
  | cons x xs ih =>
    rw [List.map_cons, List.mapM_cons, hx x (by simp), ih (fun y hy => hx y (by simp [hy]))]
    rfl

theorem mapM_none {γ δ : Type _} (g : γ → Option δ) (xs : List γ) (x : γ) (hx : x ∈ xs)
    (h : g x = none) : xs.mapM g = none := by
  induction xs with
  | nil => simp at hx
  | cons y ys ih =>
    rw [List.mapM_cons]
    rcases List.mem_cons.mp hx with rfl | hx
    · rw [h]; rfl
    · rw [ih hx]; cases g y <;> rfl

theorem runAll_congr {β : Type u} {n : Nat} (hn : 1 ≤ n) {P Q : Nat → Prog α β}
    (h : ∀ r < n, P r = Q r) : runAll n P = runAll n Q := by
  unfold runAll
  rw [h 0 (by omega)]
  congr 1
  apply List.map_congr_left
  intro r hr
  rw [List.mem_range'] at hr
  obtain ⟨i, hi, rfl⟩ := hr
  exact h _ (by omega)

theorem runAll_done {β : Type u} {n : Nat} (hn : 1 ≤ n) (v : Nat → Res β) :
    runAll n (fun r => (Prog.done (v r) : Prog α β)) = .finished ((List.range n).map v) := by
  unfold runAll run
  rw [mapM_map_some getDone _ v _ (fun x _ => rfl), range_eq_cons hn]
  rfl

theorem runAll_call {β : Type u} {n : Nat} (hn : 1 ≤ n) (c : Nat → Coll α)
    (k : Nat → Ans α → Prog α β) (a : Nat → Ans α)
    (h : exec ((List.range n).map c) = some ((List.range n).map a)) :
    runAll n (fun r => Prog.call (c r) (k r)) = runAll n (fun r => k r (a r)) := by
  conv_lhs => unfold runAll run
  rw [mapM_map_some getCall _ (fun r => (c r, k r)) _ (fun x _ => rfl)]
  simp only
  rw [range_eq_cons hn] at h
  simp only [List.map_cons] at h
  rw [List.map_map]
  have e : (Prod.fst ∘ fun r => (c r, k r)) = c := by funext r; rfl
  rw [e, h]
  simp only
  unfold runAll
  congr 1
  rw [List.zipWith_map, List.zipWith_self]

/-- If some rank has already ended while another one is in a collective, the job is stuck. -/
theorem runAll_stuck_of_mix {β : Type u} {n : Nat} (P : Nat → Prog α β) (r s : Nat)
    (hr : r < n) (hs : s < n) (h1 : (P r).getDone = none) (h2 : (P s).getCall = none) :
    runAll n P = .stuck := by
  unfold runAll
  have mem : ∀ t, t < n → t ≠ 0 → P t ∈ (List.range' 1 (n - 1)).map P := by
    intro t ht h0
    apply List.mem_map_of_mem
    rw [List.mem_range']
    exact ⟨t - 1, by omega, by omega⟩
  cases h0 : P 0 with
  | done res =>
    unfold run
    have : r ≠ 0 := by rintro rfl; rw [h0] at h1; simp [getDone] at h1
    rw [mapM_none getDone _ (P r) (mem r hr this) h1]
  | call c k =>
    unfold run
    have : s ≠ 0 := by rintro rfl; rw [h0] at h2; simp [getCall] at h2
    rw [mapM_none getCall _ (P s) (mem s hs this) h2]

/-- If all ranks are in collectives that do not match, the job is stuck. -/
theorem runAll_stuck_of_exec {β : Type u} {n : Nat} (hn : 1 ≤ n) (c : Nat → Coll α)
    (k : Nat → Ans α → Prog α β) (h : exec ((List.range n).map c) = none) :
    runAll n (fun r => Prog.call (c r) (k r)) = .stuck := by
  unfold runAll run
  rw [mapM_map_some getCall _ (fun r => (c r, k r)) _ (fun x _ => rfl)]
  simp only
  rw [range_eq_cons hn] at h
  simp only [List.map_cons] at h
  rw [List.map_map]
  have e : (Prod.fst ∘ fun r => (c r, k r)) = c := by funext r; rfl
  rw [e, h]

/-! ## reachable job states -/

/-- `Steps n P Q`: the job of `n` ranks with programs `P` reaches the programs `Q` by performing a
number of collectives. -/
inductive Steps {β : Type u} (n : Nat) : (Nat → Prog α β) → (Nat → Prog α β) → Prop where
  | refl {P Q : Nat → Prog α β} (h : ∀ r < n, P r = Q r) : Steps n P Q
  | step {P Q : Nat → Prog α β} (c : Nat → Coll α) (k : Nat → Ans α → Prog α β) (a : Nat → Ans α)
      (hP : ∀ r < n, P r = .call (c r) (k r))
      (hc : exec ((List.range n).map c) = some ((List.range n).map a))
      (h : Steps n (fun r => k r (a r)) Q) : Steps n P Q

theorem Steps.runAll_eq {β : Type u} {n : Nat} (hn : 1 ≤ n) {P Q : Nat → Prog α β} (h : Steps n P Q) :
    runAll n P = runAll n Q := by
  induction h with
  | refl h => exact runAll_congr hn h
  | step c k a hP hc _ ih => rw [runAll_congr hn hP, runAll_call hn c k a hc, ih]

theorem Steps.congr_left {β : Type u} {n : Nat} {P P' Q : Nat → Prog α β} (hp : ∀ r < n, P r = P' r)
    (h : Steps n P Q) : Steps n P' Q := by
  cases h with
  | refl h => exact .refl (fun r hr => (hp r hr).symm.trans (h r hr))
  | step c k a hP hc h => exact .step c k a (fun r hr => (hp r hr).symm.trans (hP r hr)) hc h

theorem Steps.trans {β : Type u} {n : Nat} {P Q S : Nat → Prog α β} (h1 : Steps n P Q) (h2 : Steps n Q S) :
    Steps n P S := by
  induction h1 with
  | refl h => exact h2.congr_left (fun r hr => (h r hr).symm)
  | step c k a hP hc _ ih => exact .step c k a hP hc (ih h2)

/-- In the run of the job, rank `r` executes undefined behaviour. -/
def HasUB {β : Type u} (n : Nat) (P : Nat → Prog α β) (r : Nat) : Prop :=
  ∃ Q, Steps n P Q ∧ ∃ w, Q r = .done (.ub w)

/-- In the run of the job, rank `r` throws a C++ exception. -/
def Throws {β : Type u} (n : Nat) (P : Nat → Prog α β) (r : Nat) : Prop :=
  ∃ Q, Steps n P Q ∧ ∃ m, Q r = .done (.throw m)

/-- Every rank returns normally, with the given values. -/
def Returns {β : Type u} (n : Nat) (P : Nat → Prog α β) (v : Nat → β) : Prop :=
  runAll n P = .finished ((List.range n).map (fun r => .ok (v r)))

theorem Returns.unique {β : Type u} {n : Nat} {P : Nat → Prog α β} {v w : Nat → β}
    (h1 : Returns n P v) (h2 : Returns n P w) : ∀ r < n, v r = w r := by
  unfold Returns at h1 h2
  rw [h1] at h2
  injection h2 with h2
  intro r hr
  have := List.map_inj_left.mp h2 r (List.mem_range.mpr hr)
  injection this

/-- If a rank has ended abnormally the job does not return normally. -/
theorem not_returns_of_bad {β : Type u} {n : Nat} (hn : 1 ≤ n) {P : Nat → Prog α β} {s : Nat} (hs : s < n)
    (h : ∃ x, P s = .done x ∧ ∀ b, x ≠ .ok b) (v : Nat → β) : ¬ Returns n P v := by
  intro hr
  obtain ⟨x, hx, hne⟩ := h
  by_cases hall : ∀ r < n, ∃ y, P r = .done y
  · have : Nonempty (Res β) := ⟨x⟩
    choose! y hy using hall
    unfold Returns at hr
    rw [runAll_congr hn hy, runAll_done hn] at hr
    injection hr with hr
    have h2 := List.map_inj_left.mp hr s (List.mem_range.mpr hs)
    rw [hy s hs] at hx
    injection hx with hx
    exact hne _ (hx ▸ h2)
  · push Not at hall
    obtain ⟨r, hr', hd⟩ := hall
    have h1 : (P r).getDone = none := by
      cases hp : P r with
      | done y => exact absurd hp (hd y)
      | call c k => rfl
    have h2 : (P s).getCall = none := by rw [hx]; rfl
    unfold Returns at hr
    rw [runAll_stuck_of_mix P r s hr' hs h1 h2] at hr
    cases hr

theorem HasUB.not_returns {β : Type u} {n : Nat} {P : Nat → Prog α β} {r : Nat} (hr : r < n) (h : HasUB n P r)
    (v : Nat → β) : ¬ Returns n P v := by
  obtain ⟨Q, hQ, w, hw⟩ := h
  intro hv
  unfold Returns at hv
  rw [hQ.runAll_eq (by omega)] at hv
  exact not_returns_of_bad (by omega) hr ⟨_, hw, by simp⟩ v hv

theorem Throws.not_returns {β : Type u} {n : Nat} {P : Nat → Prog α β} {r : Nat} (hr : r < n) (h : Throws n P r)
    (v : Nat → β) : ¬ Returns n P v := by
  obtain ⟨Q, hQ, w, hw⟩ := h
  intro hv
  unfold Returns at hv
  rw [hQ.runAll_eq (by omega)] at hv
  exact not_returns_of_bad (by omega) hr ⟨_, hw, by simp⟩ v hv

/-- Local code that must have succeeded for the job to return. -/
theorem lift_ok_of_returns {β γ : Type} {n : Nat} (hn : 1 ≤ n) {x : Nat → Res β} {f : Nat → β → Prog α γ}
    {v : Nat → γ} (h : Returns n (fun r => (Prog.lift (x r) : Prog α β) >>= f r) v) :
    ∃ y : Nat → β, ∀ r < n, x r = .ok (y r) := by
  have : ∀ r < n, ∃ y, x r = .ok y := by
    intro r hr
    cases hx : x r with
    | ok y => exact ⟨y, rfl⟩
    | throw m =>
      exact absurd h (not_returns_of_bad hn hr ⟨.throw m, by simp [hx, Prog.lift], by simp⟩ v)
    | ub m =>
      exact absurd h (not_returns_of_bad hn hr ⟨.ub m, by simp [hx, Prog.lift], by simp⟩ v)
  have hne : Nonempty β := by
    obtain ⟨y, _⟩ := this 0 (by omega)
    exact ⟨y⟩
  choose! y hy using this
  exact ⟨y, hy⟩

/-! ## big-step reasoning -/

/-- `Exec n P v`: started together, the programs `P r` of all ranks run through without an error,
in any context, and rank `r` obtains `v r`. -/
def Exec {β : Type} (n : Nat) (P : Nat → Prog α β) (v : Nat → β) : Prop :=
  ∀ (γ : Type) (f : Nat → β → Prog α γ), Steps n (fun r => P r >>= f r) (fun r => f r (v r))

theorem Exec.seq {β γ : Type} {n : Nat} {P : Nat → Prog α β} {v : Nat → β}
    {Q : Nat → β → Prog α γ} {w : Nat → γ} (h1 : Exec n P v)
    (h2 : Exec n (fun r => Q r (v r)) w) : Exec n (fun r => P r >>= Q r) w := by
  intro δ f
  have : (fun r => (P r >>= Q r) >>= f r) = (fun r => P r >>= fun b => Q r b >>= f r) := by
    funext r; exact Prog.bind_assoc _ _ _
  rw [this]
  exact (h1 δ (fun r b => Q r b >>= f r)).trans (h2 δ f)

/-- Advance a job over its first part. -/
theorem Exec.steps {β γ δ : Type} {n : Nat} {P : Nat → Prog α β} {v : Nat → β} (h : Exec n P v)
    (Q : Nat → β → Prog α γ) (f : Nat → γ → Prog α δ) :
    Steps n (fun r => (P r >>= Q r) >>= f r) (fun r => Q r (v r) >>= f r) := by
  have : (fun r => (P r >>= Q r) >>= f r) = (fun r => P r >>= fun b => Q r b >>= f r) := by
    funext r; exact Prog.bind_assoc _ _ _
  rw [this]
  exact h δ (fun r b => Q r b >>= f r)

theorem Exec.congr {β : Type} {n : Nat} (_hn : 1 ≤ n) {P Q : Nat → Prog α β} {v w : Nat → β}
    (hP : ∀ r < n, P r = Q r) (hv : ∀ r < n, v r = w r) (h : Exec n P v) : Exec n Q w := by
  intro γ f
  refine ((h γ f).congr_left (fun r hr => by rw [hP r hr])).trans (.refl (fun r hr => by rw [hv r hr]))

theorem Exec.local {β : Type} {n : Nat} (_hn : 1 ≤ n) {P : Nat → Res β} {v : Nat → β}
    (h : ∀ r < n, P r = .ok (v r)) : Exec n (fun r => (Prog.lift (P r) : Prog α β)) v := by
  intro γ f
  exact .refl (fun r hr => by simp only; rw [h r hr]; rfl)

theorem Exec.pure {β : Type} {n : Nat} (v : Nat → β) :
    Exec n (fun r => (Pure.pure (v r) : Prog α β)) v := by
  intro γ f; exact .refl (fun _ _ => rfl)

/-- the program that issues one collective -/
def collective (c : Coll α) : Prog α (Ans α) := .call c (fun a => Pure.pure a)

theorem Exec.coll {n : Nat} (_hn : 1 ≤ n) {c : Nat → Coll α} {a : Nat → Ans α}
    (h : exec ((List.range n).map c) = some ((List.range n).map a)) :
    Exec n (fun r => collective (c r)) a := by
  intro γ f
  unfold collective
  simp only [call_bind]
  exact .step c _ a (fun _ _ => rfl) h (.refl (fun _ _ => rfl))

theorem Exec.finish {β : Type} {n : Nat} (hn : 1 ≤ n) {P : Nat → Prog α β} {v : Nat → β}
    (h : Exec n P v) : runAll n P = .finished ((List.range n).map (fun r => .ok (v r))) := by
  have := (h β (fun _ b => Pure.pure b)).runAll_eq hn
  have e : (fun r => P r >>= fun b => Pure.pure b) = P := by
    funext r
    induction P r with
    | done r => cases r <;> rfl
    | call c k ih => simp only [call_bind]; congr 1; funext a; exact ih a
  rw [e] at this
  rw [this]
  exact runAll_done hn _

/-! ## the individual collectives -/

section
variable {n : Nat} (hn : 1 ≤ n)
include hn

private theorem head_map (c : Nat → Coll α) : ((List.range n).map c).head? = some (c 0) := by
  rw [range_eq_cons hn]; rfl

theorem exec_barrier :
    exec ((List.range n).map (fun _ => (Coll.barrier : Coll α))) =
      some ((List.range n).map (fun _ => Ans.unit)) := by
  unfold exec
  rw [head_map hn]
  simp only
  rw [if_pos (by simp [Coll.isBarrier]), List.map_map]
  rfl

theorem exec_reduce (op : RedOp) (l a : Bool) :
    exec ((List.range n).map (fun _ => (Coll.reduce op l a : Coll α))) =
      some ((List.range n).map (fun _ => Ans.unit)) := by
  unfold exec
  rw [head_map hn]
  simp only
  rw [if_pos (by simp [Coll.isReduce]), List.map_map]
  rfl

theorem exec_scan (x : Nat → Int) :
    exec ((List.range n).map (fun r => (Coll.scan (x r) : Coll α))) =
      some ((List.range n).map (fun r => Ans.int (((List.range (r + 1)).map x).sum))) := by
  unfold exec
  rw [head_map hn]
  simp only
  rw [mapM_map_some Coll.getScan _ x _ (fun _ _ => rfl)]
  simp only [Option.map_some, List.length_map, List.length_range, Option.some.injEq]
  apply List.map_congr_left
  intro r hr
  rw [List.mem_range] at hr
  rw [← List.map_take, List.take_range, Nat.min_eq_left (by omega)]

theorem exec_sumInt (x : Nat → Int) :
    exec ((List.range n).map (fun r => (Coll.sumInt (x r) : Coll α))) =
      some ((List.range n).map (fun _ => Ans.int (((List.range n).map x).sum))) := by
  unfold exec
  rw [head_map hn]
  simp only
  rw [mapM_map_some Coll.getSumInt _ x _ (fun _ _ => rfl)]
  simp only [Option.map_some, List.map_map]
  rfl

theorem exec_sumArr (x : Nat → List Int) (len : Nat) (h : ∀ r < n, (x r).length = len) :
    exec ((List.range n).map (fun r => (Coll.sumArr (x r) : Coll α))) =
      some ((List.range n).map (fun _ => Ans.ints (sumCols ((List.range n).map x) len))) := by
  unfold exec
  rw [head_map hn]
  simp only
  rw [mapM_map_some Coll.getSumArr _ x _ (fun _ _ => rfl)]
  simp only [Option.bind_some, h 0 (by omega)]
  rw [if_pos]
  · rw [List.map_map]; rfl
  · simp only [List.all_map, List.all_eq_true, List.mem_range, Function.comp, beq_iff_eq]
    exact fun r hr => h r hr

theorem exec_borArr (x : Nat → List Bool) (len : Nat) (h : ∀ r < n, (x r).length = len) :
    exec ((List.range n).map (fun r => (Coll.borArr (x r) : Coll α))) =
      some ((List.range n).map (fun _ => Ans.bools (orCols ((List.range n).map x) len))) := by
  unfold exec
  rw [head_map hn]
  simp only
  rw [mapM_map_some Coll.getBor _ x _ (fun _ _ => rfl)]
  simp only [Option.bind_some, h 0 (by omega)]
  rw [if_pos]
  · rw [List.map_map]; rfl
  · simp only [List.all_map, List.all_eq_true, List.mem_range, Function.comp, beq_iff_eq]
    exact fun r hr => h r hr

theorem exec_gather (x : Nat → List Bool) (len : Nat) (h : ∀ r < n, (x r).length = len) :
    exec ((List.range n).map (fun r => (Coll.gather (x r) : Coll α))) =
      some ((List.range n).map (fun _ => Ans.boolss ((List.range n).map x))) := by
  unfold exec
  rw [head_map hn]
  simp only
  rw [mapM_map_some Coll.getGather _ x _ (fun _ _ => rfl)]
  simp only [Option.bind_some, h 0 (by omega)]
  rw [if_pos]
  · rw [List.map_map]; rfl
  · simp only [List.all_map, List.all_eq_true, List.mem_range, Function.comp, beq_iff_eq]
    exact fun r hr => h r hr

theorem exec_alltoall (x : Nat → List Nat) (h : ∀ r < n, (x r).length = n) :
    exec ((List.range n).map (fun r => (Coll.alltoall (x r) : Coll α))) =
      some ((List.range n).map (fun r => Ans.nats ((List.range n).map (fun s => (x s).getD r 0)))) := by
  unfold exec
  rw [head_map hn]
  simp only
  rw [mapM_map_some Coll.getA2a _ x _ (fun _ _ => rfl)]
  simp only [Option.bind_some, List.length_map, List.length_range]
  rw [if_pos]
  · rw [Option.some.injEq]
    apply List.map_congr_left
    intro r _
    rw [List.map_map]; rfl
  · simp only [List.all_map, List.all_eq_true, List.mem_range, Function.comp, beq_iff_eq]
    exact fun r hr => h r hr

theorem exec_alltoallv (segs : Nat → List (List α)) (rc : Nat → List Nat)
    (h1 : ∀ r < n, (segs r).length = n) (h2 : ∀ r < n, (rc r).length = n)
    (h3 : ∀ r < n, ∀ s < n, ((segs s).getD r []).length = (rc r).getD s 0) :
    exec ((List.range n).map (fun r => (Coll.alltoallv (segs r) (rc r) : Coll α))) =
      some ((List.range n).map (fun r => Ans.data ((List.range n).map (fun s => (segs s).getD r [])))) := by
  unfold exec
  rw [head_map hn]
  simp only
  rw [mapM_map_some Coll.getA2av _ (fun r => (segs r, rc r)) _ (fun _ _ => rfl)]
  simp only [Option.bind_some, List.length_map, List.length_range]
  rw [if_pos]
  · rw [Option.some.injEq]
    apply List.map_congr_left
    intro r _
    rw [List.map_map]; rfl
  · simp only [Bool.and_eq_true, List.all_map, List.all_eq_true, List.mem_range, Function.comp, beq_iff_eq]
    refine ⟨fun r hr => ⟨h1 r hr, h2 r hr⟩, ?_⟩
    intro r hr s hs
    have hget : ∀ t < n, ((List.range n).map (fun r => (segs r, rc r))).getD t ([], []) = (segs t, rc t) := by
      intro t ht
      simp [List.getD_eq_getElem?_getD, ht]
    rw [hget s hs, hget r hr]
    exact h3 r hr s hs

theorem exec_bcastInt (x : Nat → Int) :
    exec ((List.range n).map (fun r => (Coll.bcastInt (x r) : Coll α))) =
      some ((List.range n).map (fun _ => Ans.int (x 0))) := by
  unfold exec
  rw [head_map hn]
  simp only
  rw [mapM_map_some Coll.getBcastInt _ x _ (fun _ _ => rfl)]
  simp only [Option.map_some, List.map_map]
  rfl

theorem exec_bcast (x : Nat → List α) (h : ∀ r < n, (x r).length = (x 0).length) :
    exec ((List.range n).map (fun r => (Coll.bcast (x r) : Coll α))) =
      some ((List.range n).map (fun _ => Ans.data [x 0])) := by
  unfold exec
  rw [head_map hn]
  simp only
  rw [mapM_map_some Coll.getBcast _ x _ (fun _ _ => rfl)]
  simp only [Option.bind_some]
  rw [if_pos]
  · rw [List.map_map]; rfl
  · simp only [List.all_map, List.all_eq_true, List.mem_range, Function.comp, beq_iff_eq]
    exact fun r hr => h r hr

end

end Verif.Spmd
