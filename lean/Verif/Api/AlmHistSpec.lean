import Verif.Api.AlmHist
import Mathlib.Data.Option.NAry

/-!
# What a client of a set of coefficients is promised

Independent of the storage: an object is a pair of limits and a table of the coefficients that have been determined.
`specStep` says which calls are allowed in a state, what they return and what they determine; a call with `none` is
one about which nothing is promised.
-/

namespace Verif.AlmHist
open Verif

variable {V K : Type}

/-- What is known of an object: a table for `0 ≤ m ≤ M ≤ L`, `m ≤ l ≤ L`, or limits of a `Set` that threw, which left
the object unusable until it is set again. -/
inductive Know (V : Type) where
  | good (L M : ℕ) (c : ℕ → ℕ → Option V)
  | failed (l m : ℤ)

/-- The objects alive and what is known of them. -/
abbrev SEnv (V : Type) := ℕ → Option (Know V)

/-- The number of coefficients of the columns before column `m`. -/
def before (L m : ℕ) : ℕ := ∑ k ∈ Finset.range m, (L + 1 - k)

/-- Limits `l`, `m` requested by a client: proper ones, ones refused with an exception, or (negative ones) neither. -/
inductive Want where
  | proper (L M : ℕ)
  | refused
  | odd

/-- The kind of a request. -/
def want (l m : ℤ) : Want :=
  if l < m then .refused else if 0 ≤ m then .proper l.toNat m.toNat else .odd

/-- The messages of the exceptions. -/
def msgLimits : String := "mmax must not be larger than lmax"
/-- see `msgLimits` -/
def msgSize : String := "wrong array size"
/-- see `msgLimits` -/
def msgScaleL : String := "alm.ScaleL: factor array too short"
/-- see `msgLimits` -/
def msgScaleM : String := "alm.ScaleM: factor array too short"
/-- see `msgLimits` -/
def msgAdd : String := "A_lm are not conformable"

/-- The limits a client is told. -/
def Know.limits : Know V → ℤ × ℤ
  | .good L M _ => (L, M)
  | .failed l m => (l, m)

/-- One call.  Nothing is promised for negative limits, for a use of an object whose `Set` threw, and for coefficients
outside the limits. -/
def specStep (A : Arith V K) (s : SEnv V) : Op V K → Option (SEnv V × Option String)
  | .create i l m => match s i, want l m with
    | none, .proper L M => some (Function.update s i (some (.good L M fun _ _ => none)), none)
    | none, .refused => some (s, some msgLimits)
    | _, _ => none
  | .destroy i => match s i with
    | some _ => some (Function.update s i none, none)
    | none => none
  | .set i l m => match s i, want l m with
    | some _, .proper L M => some (Function.update s i (some (.good L M fun _ _ => none)), none)
    | some _, .refused => some (Function.update s i (some (.failed l m)), some msgLimits)
    | _, _ => none
  | .setArr i data l m => match s i, want l m with
    | some _, .proper L M =>
      if data.length = before L (M + 1) then
        some (Function.update s i (some (.good L M fun l m => data[before L m + (l - m)]?)), none)
      else some (s, some msgSize)
    | some _, .refused => some (s, some msgLimits)
    | _, _ => none
  | .toZero i => match s i with
    | some (.good L M _) => some (Function.update s i (some (.good L M fun _ _ => some A.zero)), none)
    | _ => none
  | .scale i f => match s i with
    | some (.good L M c) =>
      some (Function.update s i (some (.good L M fun l m => (c l m).map (A.mul · f))), none)
    | _ => none
  | .scaleL i fs => match s i with
    | some (.good L M c) =>
      if L < fs.length then
        some (Function.update s i (some (.good L M fun l m =>
          Option.map₂ A.mul (c l m) fs[l]?)), none)
      else some (s, some msgScaleL)
    | _ => none
  | .scaleM i fs => match s i with
    | some (.good L M c) =>
      if M < fs.length then
        some (Function.update s i (some (.good L M fun l m =>
          Option.map₂ A.mul (c l m) fs[m]?)), none)
      else some (s, some msgScaleM)
    | _ => none
  | .addNum i x => match s i with
    | some (.good L M c) =>
      some (Function.update s i (some (.good L M fun l m =>
        if l = 0 ∧ m = 0 then (c l m).map (A.addK · x) else c l m)), none)
    | _ => none
  | .put i l m v => match s i with
    | some (.good L M c) =>
      if 0 ≤ m ∧ m ≤ M ∧ m ≤ l ∧ l ≤ L then
        some (Function.update s i (some (.good L M fun l' m' => if (l' : ℤ) = l ∧ (m' : ℤ) = m then some v else c l' m')),
          none)
      else none
    | _ => none
  | .add i j => match s i, s j with
    | some (.good L M c), some (.good L' M' d) =>
      if L = L' ∧ M = M' then
        some (Function.update s i (some (.good L M fun l m =>
          Option.map₂ A.add (c l m) (d l m))), none)
      else some (s, some msgAdd)
    | some (.good ..), some (.failed ..) => some (s, some msgAdd)
    | some (.failed ..), some (.good ..) => some (s, some msgAdd)
    | _, _ => none
  | .swap i j => match s i, s j with
    | some x, some y => some (Function.update (Function.update s i (some y)) j (some x), none)
    | _, _ => none
  | .assign i j => match s i, s j with
    | some _, some y => some (Function.update s i (some y), none)
    | _, _ => none

/-- A history. -/
def specRun (A : Arith V K) : List (Op V K) → SEnv V → Option (SEnv V × List (Option String))
  | [], s => some (s, [])
  | op :: ops, s => do
    let r ← specStep A s op
    let q ← specRun A ops r.1
    some (q.1, r.2 :: q.2)

/-- Coefficient `l`, `m` of object `i` is determined, with value `v`. -/
def Known (s : SEnv V) (i l m : ℕ) (v : V) : Prop :=
  ∃ L M c, s i = some (.good L M c) ∧ m ≤ M ∧ m ≤ l ∧ l ≤ L ∧ c l m = some v

end Verif.AlmHist
