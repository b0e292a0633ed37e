import Verif.Base.Res
import Mathlib.Tactic.Common
import Mathlib.Data.List.Basic
import Mathlib.Data.List.Range
import Mathlib.Data.List.Nodup

/-!
# Numbers and rows

`Arith F` is the arithmetic available to the code.  No algebraic law is part of the
class: theorems stated for an arbitrary `Arith F` hold bit for bit for IEEE doubles as
well as for exact real arithmetic.  Needed order properties are separate hypotheses.
-/

namespace Verif.Tod
open Verif Res

class Arith (F : Type) where
  add : F → F → F
  sub : F → F → F
  mul : F → F → F
  div : F → F → F
  /-- C `fmod` -/
  fmod : F → F → F
  /-- C++ `a < b` -/
  lt : F → F → Bool
  /-- C++ `a <= b` -/
  le : F → F → Bool
  /-- C++ `a == b` -/
  eqb : F → F → Bool
  /-- conversion of an integer -/
  ofInt : Int → F
  /-- conversion to an integer type (truncation); `none` where C++ leaves it undefined -/
  trunc : F → Option Int
  sin : F → F
  cos : F → F
  /-- the literals of levels/cxxsupport/ls_constants.h (`pi`, `halfpi`) and `.5` -/
  pi : F
  halfpi : F
  half : F

/-- Conversion `long(x)` / `int(x)`: undefined for NaN, infinities and out-of-range values. -/
def toInt {F : Type} [Arith F] (x : F) : Res Int :=
  match Arith.trunc x with
  | some i => ok i
  | none => ub "float to integer conversion"

/-- One row of a `pointing` buffer: phi, theta, psi, signal, time
(src/conviqt.hpp `class pointing`; column use in src/conviqt_math.cpp:1479-1672). -/
@[ext] structure Row (F : Type) where
  phi : F
  theta : F
  psi : F
  sig : F
  time : F
  deriving Repr, DecidableEq

variable {F : Type}

/-- The five doubles of a row in memory order. -/
def Row.toList (r : Row F) : List F := [r.phi, r.theta, r.psi, r.sig, r.time]

/-- A buffer of `5*n` doubles seen as `n` rows: memory image. -/
def flat (rows : List (Row F)) : List F := rows.flatMap Row.toList

/-- Rows of a memory image; `none` if its size is not a multiple of five. -/
def unflat : List F → Option (List (Row F))
  | [] => some []
  | a :: b :: c :: d :: e :: rest => (unflat rest).map (fun rs => ⟨a, b, c, d, e⟩ :: rs)
  | _ => none

@[simp] theorem flat_length (rows : List (Row F)) : (flat rows).length = 5 * rows.length := by
  induction rows with
  | nil => rfl
  | cons r rows ih =>
    simp only [flat, List.flatMap_cons, List.length_append, List.length_cons] at *
    rw [ih]; simp [Row.toList]; omega

@[simp] theorem unflat_flat (rows : List (Row F)) : unflat (flat rows) = some rows := by
  induction rows with
  | nil => rfl
  | cons r rows ih =>
    have : flat (r :: rows) = r.phi :: r.theta :: r.psi :: r.sig :: r.time :: flat rows := by
      simp [flat, Row.toList]
    rw [this, unflat, ih]; rfl

theorem flat_append (a b : List (Row F)) : flat (a ++ b) = flat a ++ flat b := by
  simp [flat]

theorem flat_flatten (xs : List (List (Row F))) : flat xs.flatten = (xs.map flat).flatten := by
  induction xs with
  | nil => rfl
  | cons x xs ih => simp [flat_append, ih]

theorem mapM_ok {β γ : Type} {f : β → Res γ} {g : β → γ} {xs : List β}
    (h : ∀ x ∈ xs, f x = ok (g x)) : xs.mapM f = ok (xs.map g) := by
  induction xs with
  | nil => rfl
  | cons x xs ih =>
    rw [List.mapM_cons, h x (by simp), ih (fun y hy => h y (by simp [hy]))]
    rfl

theorem mapM_ok_iff {β γ : Type} {f : β → Res γ} {xs : List β} {ys : List γ}
    (h : xs.mapM f = ok ys) : ys.length = xs.length ∧ ∀ (i : Nat) x y, xs[i]? = some x → ys[i]? = some y → f x = ok y := by
  induction xs generalizing ys with
  | nil =>
    rw [List.mapM_nil] at h; injection h with h; subst h; simp
  | cons x xs ih =>
    rw [List.mapM_cons, bind_eq_ok] at h
    obtain ⟨a, ha, h⟩ := h
    rw [bind_eq_ok] at h
    obtain ⟨b, hb, h⟩ := h
    injection h with h
    subst h
    obtain ⟨h1, h2⟩ := ih hb
    refine ⟨by simp [h1], ?_⟩
    intro i u v hu hv
    cases i with
    | zero => simp at hu hv; subst hu; subst hv; exact ha
    | succ i => exact h2 i u v (by simpa using hu) (by simpa using hv)

/-! ## slices -/

/-- Read access to `cnt` elements starting at `off`. -/
def sliceChk {β : Type} (buf : List β) (off cnt : Nat) : Res (List β) :=
  if off + cnt ≤ buf.length then ok ((buf.drop off).take cnt) else ub "slice out of bounds"

theorem slice_flatten {β : Type} (segs : List (List β)) (c : Nat) (hc : c < segs.length) :
    sliceChk segs.flatten ((segs.take c).map List.length).sum (segs[c]).length = ok segs[c] := by
  have e : segs.flatten = (segs.take c).flatten ++ (segs[c] ++ (segs.drop (c + 1)).flatten) := by
    have h := congrArg List.flatten (List.take_append_drop c segs).symm
    rw [List.drop_eq_getElem_cons hc, List.flatten_append, List.flatten_cons] at h
    exact h
  have el : ((segs.take c).map List.length).sum = (segs.take c).flatten.length := by
    rw [List.length_flatten]
  unfold sliceChk
  rw [e, el]
  rw [if_pos (by simp)]
  congr 1
  rw [List.drop_left, List.take_left]

/-! ## scatter -/

/-- `for (i …) buf[idx[i]] = val[i]` -/
def scatter {β : Type} (buf : List β) (ps : List (Int × β)) : Res (List β) :=
  foldRes (fun b p => wr b p.1 p.2) buf ps

theorem scatter_spec {β : Type} (ps : List (Int × β)) :
    ∀ (buf : List β), (ps.map Prod.fst).Nodup →
      (∀ p ∈ ps, 0 ≤ p.1 ∧ p.1.toNat < buf.length) →
      ∃ out, scatter buf ps = ok out ∧ out.length = buf.length ∧
        (∀ p ∈ ps, out[p.1.toNat]? = some p.2) ∧
        (∀ i : Nat, (i : Int) ∉ ps.map Prod.fst → out[i]? = buf[i]?) := by
  induction ps with
  | nil => intro buf _ _; exact ⟨buf, rfl, rfl, by simp, by simp⟩
  | cons p ps ih =>
    intro buf hnd hlt
    have hp := hlt p (by simp)
    obtain ⟨out, h1, h2, h3, h4⟩ := ih (buf.set p.1.toNat p.2)
      (by rw [List.map_cons, List.nodup_cons] at hnd; exact hnd.2)
      (by intro q hq; have := hlt q (by simp [hq]); simpa using this)
    have hpn : p.1 ∉ ps.map Prod.fst := by
      rw [List.map_cons, List.nodup_cons] at hnd; exact hnd.1
    refine ⟨out, ?_, by simpa using h2, ?_, ?_⟩
    · unfold scatter at h1 ⊢
      rw [foldRes_cons, wr_ok _ hp.1 hp.2]; exact h1
    · intro q hq
      rcases List.mem_cons.mp hq with rfl | hq
      · rw [h4 q.1.toNat (by rw [Int.toNat_of_nonneg hp.1]; exact hpn)]
        simp [hp.2]
      · exact h3 q hq
    · intro i hi
      rw [List.map_cons, List.mem_cons, not_or] at hi
      rw [h4 i hi.2, List.getElem?_set_ne]
      intro e; apply hi.1; omega

end Verif.Tod
