import Verif.Util.RisboProof
import Verif.Par.Region

/-!
# Risbo recursion at π/2 (C76): the serial and the OpenMP class

levels/cxxsupport/wigner.cc:39-95, 154-212, ls_wigner.h:44-61, 80-98.  Exact arithmetic in place of `double`.
-/

namespace Verif.HalfPi

open Verif Res Verif.Risbo

/-- The member `pq`, wigner.cc:59 and :155. -/
noncomputable def pq : ℝ := 1 / 2 * √2

/-- The members of the two classes, ls_wigner.h:49-52 and :89-92 (`dd` is absent from the serial class); `pq` is the constant above. -/
structure HRec where
  sqt : List ℝ
  d : A2
  dd : A2
  n : ℤ

/-- The constructors, wigner.cc:58-60 and :154-157, for `lmax ≥ 0`; `junk`, `junk'` are the arbitrary initial contents of the tables. -/
noncomputable def HRec.new (lmax : ℕ) (junk junk' : ℕ → ℕ → ℝ) : HRec :=
  ⟨sqTab lmax, ⟨lmax + 2, lmax + 2, junk⟩, ⟨lmax + 2, lmax + 2, junk'⟩, -1⟩

/-- The closed form for `n == 1`, wigner.cc:69-70 and :167-168. -/
noncomputable def first (d : A2) : Res A2 := do
  let d ← d.put 0 0 (1 / 2)
  let d ← d.put 0 1 (-pq)
  let d ← d.put 1 0 pq
  d.put 1 1 0

/-- One iteration of the padding loop, wigner.cc:78-80 and :176-178; `r.1` is the C++ variable `flip`. -/
noncomputable def padBody (n i : ℕ) (r : ℝ × A2) : Res (ℝ × A2) := do
  let x ← r.2.get i ((n : ℤ) - 2)
  let d ← r.2.put i n (r.1 * x)
  let y ← d.get ((n : ℤ) - 2) i
  let d ← d.put n i (r.1 * y)
  ok (-r.1, d)

/-- The padding, wigner.cc:75-82 and :173-180. -/
noncomputable def pad (n : ℕ) (d : A2) : Res A2 := do
  let r ← forN n (padBody n) (1, d)
  let x ← r.2.get ((n : ℤ) - 2) n
  r.2.put n n (r.1 * x)

/-- One iteration of the loop of `do_line0` on row 0, wigner.cc:43, for `i`. -/
noncomputable def line0Body (sqt : List ℝ) (j : ℕ) (i : ℤ) (d : A2) : Res A2 := do
  let sj ← rd sqt j
  let sji ← rd sqt ((j : ℤ) - i)
  let si ← rd sqt i
  let x ← d.get 0 i
  let y ← d.get 0 (i - 1)
  d.put 0 i (pq / (j : ℝ) * sj * (sji * x - si * y))

/-- `wigner_d_halfpi_risbo_scalar::do_line0` on row 0, wigner.cc:39-45. -/
noncomputable def doLine0 (sqt : List ℝ) (n j : ℕ) (d : A2) : Res A2 := do
  let d ← forN n (fun t d => line0Body sqt j ((n : ℤ) - t) d) d
  let x ← d.get 0 0
  d.put 0 0 (pq * x)

/-- One iteration of the loop of `do_line`, wigner.cc:53-54, with `l1` row `k-1` and `l2` row `k`. -/
noncomputable def lineBody (sqt : List ℝ) (j k : ℕ) (t1 t2 : ℝ) (i : ℤ) (d : A2) : Res A2 := do
  let sji ← rd sqt ((j : ℤ) - i)
  let si ← rd sqt i
  let a ← d.get k i
  let b ← d.get k (i - 1)
  let a' ← d.get ((k : ℤ) - 1) i
  let b' ← d.get ((k : ℤ) - 1) (i - 1)
  d.put k i (t1 * (sji * a - si * b) + t2 * (sji * a' + si * b'))

/-- `wigner_d_halfpi_risbo_scalar::do_line` with `l1` row `k-1` and `l2` row `k`, wigner.cc:46-56. -/
noncomputable def doLine (sqt : List ℝ) (n j k : ℕ) (d : A2) : Res A2 := do
  let sjk ← rd sqt ((j : ℤ) - k)
  let sk ← rd sqt k
  let t1 := pq / (j : ℝ) * sjk
  let t2 := pq / (j : ℝ) * sk
  let d ← forN n (fun t d => lineBody sqt j k t1 t2 ((n : ℤ) - t) d) d
  let sj ← rd sqt j
  let a ← d.get ((k : ℤ) - 1) 0
  let b ← d.get k 0
  d.put k 0 (sj * (t2 * a + t1 * b))

/-- The body of the loop over rows, wigner.cc:87-88, for `k = n - t`. -/
noncomputable def rowBody (sqt : List ℝ) (n t : ℕ) (d : A2) : Res A2 := do
  let d ← doLine sqt n (2 * n - 1) (n - t - 1) d
  doLine sqt n (2 * n) (n - t) d

/-- The in-place step for `n ≥ 2`, wigner.cc:74-92. -/
noncomputable def scalarStep (sqt : List ℝ) (n : ℕ) (d : A2) : Res A2 := do
  let d ← pad n d
  let d ← doLine sqt n (2 * n - 1) n d
  let d ← forN (n - 1) (rowBody sqt n) d
  let d ← doLine0 sqt n (2 * n - 1) d
  let d ← doLine sqt n (2 * n) 1 d
  doLine0 sqt n (2 * n) d

/-- The table after the call that makes `n` the current degree. -/
noncomputable def scalarTable (sqt : List ℝ) (n : ℤ) (d : A2) : Res A2 :=
  if n = 0 then d.put 0 0 1 else if n = 1 then first d else scalarStep sqt n.toNat d

/-- `wigner_d_halfpi_risbo_scalar::recurse`, wigner.cc:62-95. -/
noncomputable def HRec.scalar (r : HRec) : Res HRec := do
  let d ← scalarTable r.sqt (r.n + 1) r.d
  ok { r with d := d, n := r.n + 1 }

/-- `n` calls in a row. -/
noncomputable def calls (f : HRec → Res HRec) (r : HRec) : ℕ → Res HRec
  | 0 => ok r
  | n + 1 => calls f r n >>= f

/-! ## The parallel class -/

/-- Programs with several possible outcomes: the set of outcomes. -/
def ND (α : Type) : Type := Res α → Prop

namespace ND
/-- one outcome -/
def det {α : Type} (x : Res α) : ND α := fun r => r = x
/-- a value of which nothing is known -/
def any {α β : Type} (f : β → α) : ND α := fun r => ∃ b, r = ok (f b)
/-- sequential composition; an exception or undefined behaviour ends the program -/
def bind {α β : Type} (x : ND α) (f : α → ND β) : ND β := fun r =>
  (∃ a, x (ok a) ∧ f a r) ∨ (∃ m, x (.throw m) ∧ r = .throw m) ∨ ∃ m, x (.ub m) ∧ r = .ub m

instance : Monad ND where
  pure a := det (ok a)
  bind := bind
end ND

/-- The shared doubles of the parallel region: entries of `d` (`false`) and `dd` (`true`). -/
abbrev Cell := Bool × ℕ × ℕ

/-- The shared memory when the tables are `d` and `dd`. -/
def mem (d dd : A2) : Cell → ℝ := fun l => if l.1 then dd.v l.2.1 l.2.2 else d.v l.2.1 l.2.2

/-- The table `dd` (of `n1 × n2` entries) in shared memory `m`. -/
def table (n1 n2 : ℕ) (m : Cell → ℝ) : A2 := ⟨n1, n2, fun k i => m (true, k, i)⟩

/-- `d[k][i]` or `dd[k][i]` of a table with `n1 × n2` entries. -/
def entry (w : Bool) (n1 n2 : ℕ) (k i : ℤ) : Res Cell :=
  if 0 ≤ k ∧ k < n1 ∧ 0 ≤ i ∧ i < n2 then ok (w, k.toNat, i.toNat) else ub "arr2 access out of bounds"

/-- Row 0 of `dd`, wigner.cc:186-188. -/
noncomputable def row0 (sqt : List ℝ) (n j : ℕ) (d dd : A2) : Res A2 := do
  let x ← d.get 0 0
  let dd ← dd.put 0 0 (pq * x)
  forN n (fun t dd => do
    let i : ℤ := (t : ℤ) + 1
    let sj ← rd sqt j
    let sji ← rd sqt ((j : ℤ) - i)
    let si ← rd sqt i
    let x ← d.get 0 i
    let y ← d.get 0 (i - 1)
    dd.put 0 i (pq / (j : ℝ) * sj * (sji * x - si * y))) dd

/-- The sizes of `d` and `dd`. -/
structure Sizes where
  a1 : ℕ
  a2 : ℕ
  b1 : ℕ
  b2 : ℕ

/-- The inner loop of the parallel loop for `i = t + 1`, wigner.cc:201-204; the private data are `save1`, `save2`. -/
noncomputable def cellP (sqt : List ℝ) (z : Sizes) (j k : ℕ) (s1 s2 : ℝ) (t : ℕ) (q : ℝ × ℝ) : Par.Prog Cell ℝ (ℝ × ℝ) := do
  let i : ℤ := (t : ℤ) + 1
  let si ← Par.Prog.lift (rd sqt i)
  let e ← Par.Prog.lift (entry true z.b1 z.b2 k i)
  Par.Prog.wrP e (si * (q.2 - q.1))
  let c1 ← Par.Prog.lift (entry false z.a1 z.a2 k i)
  let a ← Par.Prog.rdP c1
  let c2 ← Par.Prog.lift (entry false z.a1 z.a2 ((k : ℤ) - 1) i)
  let b ← Par.Prog.rdP c2
  let sji ← Par.Prog.lift (rd sqt ((j : ℤ) - i))
  let x ← Par.Prog.rdP e
  Par.Prog.wrP e (x + sji * (s1 * a + s2 * b))
  .ret (ok (s1 * a, s2 * b))

/-- The body of the parallel loop for row `k`, wigner.cc:195-205. -/
noncomputable def rowP (sqt : List ℝ) (z : Sizes) (n j k : ℕ) : Par.Prog Cell ℝ Unit := do
  let sjk ← Par.Prog.lift (rd sqt ((j : ℤ) - k))
  let sk ← Par.Prog.lift (rd sqt k)
  let s1 := sjk * (pq / (j : ℝ))
  let s2 := sk * (pq / (j : ℝ))
  let c1 ← Par.Prog.lift (entry false z.a1 z.a2 k 0)
  let a ← Par.Prog.rdP c1
  let c2 ← Par.Prog.lift (entry false z.a1 z.a2 ((k : ℤ) - 1) 0)
  let b ← Par.Prog.rdP c2
  let sj ← Par.Prog.lift (rd sqt j)
  let e ← Par.Prog.lift (entry true z.b1 z.b2 k 0)
  Par.Prog.wrP e (sj * (s1 * a + s2 * b))
  let _ ← Par.Prog.forN n (cellP sqt z j k s1 s2) (s1 * a, s2 * b)
  .ret (ok ())

/-- The work-shared loop over rows `1 … n`, wigner.cc:191-194 (`k` is private to each thread). -/
noncomputable def rowLoop (sqt : List ℝ) (z : Sizes) (n j : ℕ) : Par.Loop Cell ℝ Unit where
  pre _ s := .ret (ok s)
  iters := List.range' 1 n
  body _ k _ := rowP sqt z n j k

/-- All outcomes of the parallel region, wigner.cc:189-207: for any number of threads and any dealing of the rows to them, any interleaving of
their loads and stores.  A data race, undefined behaviour or an exception in a thread, or a run without end, is recorded as undefined behaviour. -/
noncomputable def region (sqt : List ℝ) (n j : ℕ) (d dd : A2) : ND A2 := fun r =>
  ∃ (N : ℕ) (its : Fin N → List ℕ),
    Par.Dealt its (List.range' 1 n) ∧
    let P := (rowLoop sqt ⟨d.n1, d.n2, dd.n1, dd.n2⟩ n j).phase its
    (∃ m' s', Par.Ends [P] (mem d dd) (fun _ => ()) m' s' ∧ r = ok (table dd.n1 dd.n2 m')) ∨
    (∃ c, Par.Reach [P] (mem d dd) (fun _ => ()) c ∧ (Par.Race c ∨ Par.Broken c) ∧ r = ub "race or failure in a thread") ∨
    ((∀ k, ∃ c, Par.StepsN k (Par.start P (mem d dd) (fun _ => ())) c) ∧ r = ub "no end")

/-- One half step `j`, wigner.cc:182-209.  `fast_alloc` leaves the contents of `dd` unspecified (ls_arr.h:400-406 may keep the block of memory or
take a new one); the result is `(dd, d)` after the swap. -/
noncomputable def half (sqt : List ℝ) (n j : ℕ) (d : A2) : ND (A2 × A2) := do
  let dd ← ND.any (fun junk : ℕ → ℕ → ℝ => (⟨n + 2, n + 2, junk⟩ : A2))
  let dd ← ND.det (row0 sqt n j d dd)
  let dd ← region sqt n j d dd
  ND.det (ok (dd, d))

/-- The step for `n ≥ 2`, wigner.cc:172-210. -/
noncomputable def ompStep (sqt : List ℝ) (n : ℕ) (d : A2) : ND (A2 × A2) := do
  let d ← ND.det (pad n d)
  let r ← half sqt n (2 * n - 1) d
  half sqt n (2 * n) r.1

/-- The case `n == 1`, wigner.cc:166-168: `fast_alloc` leaves the contents unspecified. -/
noncomputable def ompFirst (dd : A2) : ND (A2 × A2) := do
  let d ← ND.any (fun junk : ℕ → ℕ → ℝ => (⟨3, 3, junk⟩ : A2))
  let d ← ND.det (first d)
  ND.det (ok (d, dd))

/-- The two tables after the call that makes `n` the current degree. -/
noncomputable def ompTables (r : HRec) (n : ℤ) : ND (A2 × A2) :=
  if n = 0 then ND.det (r.d.put 0 0 1 >>= fun d => ok (d, r.dd)) else if n = 1 then ompFirst r.dd else ompStep r.sqt n.toNat r.d

/-- `wigner_d_halfpi_risbo_openmp::recurse`, wigner.cc:159-212: all outcomes. -/
noncomputable def HRec.omp (r : HRec) : ND HRec := do
  let e ← ompTables r (r.n + 1)
  ND.det (ok { r with d := e.1, dd := e.2, n := r.n + 1 })

/-- All outcomes of `n` calls in a row on a new object, for any initial contents of its tables. -/
noncomputable def ompCalls (lmax : ℕ) : ℕ → ND HRec
  | 0 => ND.any (fun junk : (ℕ → ℕ → ℝ) × (ℕ → ℕ → ℝ) => HRec.new lmax junk.1 junk.2)
  | n + 1 => ompCalls lmax n >>= HRec.omp

end Verif.HalfPi
