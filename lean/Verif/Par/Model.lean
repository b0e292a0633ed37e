import Verif.Base.Res
import Mathlib.Data.Set.Basic
import Mathlib.Logic.Function.Basic
import Mathlib.Logic.Relation
import Mathlib.Algebra.BigOperators.Fin

/-!
# Threads of an OpenMP parallel region: interleaving of single memory accesses

The parallel regions of the library (`#pragma omp parallel default(shared)`, src/conviqt_math.cpp:704, 960, 1197, 1387) consist
of work-shared loops (`#pragma omp for schedule(static, c)`), each followed by the implicit barrier.  A thread is a program
whose elementary actions are the loads and stores of shared doubles; between them it computes on private data.  The
machine picks, again and again, any thread that has an action left and performs this one action.  A *race* is a
configuration in which the next actions of two threads touch the same double and one of them is a store.

A location to which no thread of a region stores may be represented by a constant of the programs instead of a load.
-/

namespace Verif.Par
open Verif Res

/-- A thread's code: it finishes with an outcome, loads the double at `l` and continues with its value, or stores `v` at `l`. -/
inductive Prog (L V α : Type) where
  | ret (r : Res α)
  | load (l : L) (k : V → Prog L V α)
  | store (l : L) (v : V) (k : Prog L V α)

variable {L V α β S : Type}

namespace Prog

/-- sequential composition; an exception or undefined behaviour ends the thread -/
def bind : Prog L V α → (α → Prog L V β) → Prog L V β
  | ret (.ok a), f => f a
  | ret (.throw m), _ => ret (.throw m)
  | ret (.ub m), _ => ret (.ub m)
  | load l k, f => load l (fun v => bind (k v) f)
  | store l v k, f => store l v (bind k f)

instance : Monad (Prog L V) where
  pure a := ret (ok a)
  bind := bind

/-- private computation -/
def lift (r : Res α) : Prog L V α := ret r
/-- rvalue -/
def rdP (l : L) : Prog L V V := load l (fun v => ret (ok v))
/-- assignment -/
def wrP (l : L) (v : V) : Prog L V Unit := store l v (ret (ok ()))

/-- `for (x in the given order) s = f(x, s)` -/
def forL (xs : List β) (f : β → S → Prog L V S) (s : S) : Prog L V S :=
  match xs with
  | [] => ret (ok s)
  | x :: xs => bind (f x s) (fun s => forL xs f s)

/-- `for (i = 0; i < n; ++i) s = f(i, s)` -/
def forN : ℕ → (ℕ → S → Prog L V S) → S → Prog L V S
  | 0, _, s => ret (ok s)
  | n + 1, f, s => bind (forN n f s) (f n)

end Prog

/-- `n` threads between two barriers: the shared memory and what each thread has still to do. -/
structure Cfg (n : ℕ) (L V S : Type) where
  mem : L → V
  todo : Fin n → Prog L V S

open Classical in
/-- One action of one thread. -/
inductive Step {n : ℕ} : Cfg n L V S → Cfg n L V S → Prop where
  | load {c : Cfg n L V S} (t : Fin n) (l : L) (k : V → Prog L V S) (h : c.todo t = .load l k) :
      Step c ⟨c.mem, Function.update c.todo t (k (c.mem l))⟩
  | store {c : Cfg n L V S} (t : Fin n) (l : L) (v : V) (k : Prog L V S) (h : c.todo t = .store l v k) :
      Step c ⟨Function.update c.mem l v, Function.update c.todo t k⟩

/-- Any number of actions. -/
abbrev Steps {n : ℕ} : Cfg n L V S → Cfg n L V S → Prop := Relation.ReflTransGen Step

/-- `k` actions. -/
inductive StepsN {n : ℕ} : ℕ → Cfg n L V S → Cfg n L V S → Prop where
  | refl (c : Cfg n L V S) : StepsN 0 c c
  | tail {k : ℕ} {a b c : Cfg n L V S} (h : StepsN k a b) (hs : Step b c) : StepsN (k + 1) a c

/-- The next action of `p` touches `l`. -/
def Touches (p : Prog L V S) (l : L) : Prop := (∃ k, p = .load l k) ∨ ∃ v k, p = .store l v k
/-- The next action of `p` is a store to `l`. -/
def Stores (p : Prog L V S) (l : L) : Prop := ∃ v k, p = .store l v k

/-- Data race: the next actions of two threads touch the same double, and one of them is a store. -/
def Race {n : ℕ} (c : Cfg n L V S) : Prop := ∃ t u l, t ≠ u ∧ Stores (c.todo t) l ∧ Touches (c.todo u) l

/-- Some thread has ended by undefined behaviour or an exception (which must not leave a parallel region). -/
def Broken {n : ℕ} (c : Cfg n L V S) : Prop := ∃ t, (∃ m, c.todo t = .ret (.ub m)) ∨ ∃ m, c.todo t = .ret (.throw m)

/-- All threads have arrived at the barrier, with private data `s`. -/
def Arrived {n : ℕ} (c : Cfg n L V S) (s : Fin n → S) : Prop := ∀ t, c.todo t = .ret (ok (s t))

/-- A parallel region: for every barrier-delimited phase the code of every thread, a function of its private data. -/
abbrev Phase (n : ℕ) (L V S : Type) := Fin n → S → Prog L V S

/-- The configuration in which a phase starts. -/
def start {n : ℕ} (P : Phase n L V S) (m : L → V) (s : Fin n → S) : Cfg n L V S := ⟨m, fun t => P t (s t)⟩

/-- Configurations the region can get into: within the first phase, or, if all threads have arrived at its barrier, in the rest. -/
inductive Reach {n : ℕ} : List (Phase n L V S) → (L → V) → (Fin n → S) → Cfg n L V S → Prop where
  | here {P : Phase n L V S} {Ps : List (Phase n L V S)} {m : L → V} {s : Fin n → S} {c : Cfg n L V S}
      (h : Steps (start P m s) c) : Reach (P :: Ps) m s c
  | later {P : Phase n L V S} {Ps : List (Phase n L V S)} {m : L → V} {s s' : Fin n → S} {c d : Cfg n L V S}
      (h : Steps (start P m s) c) (ha : Arrived c s') (hr : Reach Ps c.mem s' d) : Reach (P :: Ps) m s d

/-- The region ends with shared memory `m'` and private data `s'`. -/
inductive Ends {n : ℕ} : List (Phase n L V S) → (L → V) → (Fin n → S) → (L → V) → (Fin n → S) → Prop where
  | nil {m : L → V} {s : Fin n → S} : Ends [] m s m s
  | cons {P : Phase n L V S} {Ps : List (Phase n L V S)} {m m' : L → V} {s s' s'' : Fin n → S} {c : Cfg n L V S}
      (h : Steps (start P m s) c) (ha : Arrived c s') (hr : Ends Ps c.mem s' m' s'') : Ends (P :: Ps) m s m' s''

/-- `#pragma omp for schedule(static, chunk)` over `total` iterations: chunks of `chunk` consecutive iterations are dealt to the
`n` threads in turn (OpenMP 4.5, 2.7.1); this is the list of iterations of thread `t`, in the order in which it executes them. -/
def static (chunk total n : ℕ) (t : ℕ) : List ℕ := (List.range total).filter (fun k => (k / chunk) % n = t)

end Verif.Par
