import Verif.Tod.Props
import Mathlib.Analysis.SpecialFunctions.Trigonometric.Basic
import Mathlib.Algebra.Order.Floor.Ring

/-!
# Exact real arithmetic

The instance of `Arith` in which the code computes with real numbers, and the laws it satisfies.
-/

namespace Verif.Tod
open Verif Res Spmd

open Classical in
/-- Truncation towards zero. -/
noncomputable def truncR (x : ℝ) : ℤ := if 0 ≤ x then ⌊x⌋ else ⌈x⌉

open Classical in
noncomputable instance : Arith ℝ where
  add := (· + ·)
  sub := (· - ·)
  mul := (· * ·)
  div := (· / ·)
  fmod := fun x y => x - y * (truncR (x / y) : ℝ)
  lt := fun a b => decide (a < b)
  le := fun a b => decide (a ≤ b)
  eqb := fun a b => decide (a = b)
  ofInt := fun i => (i : ℝ)
  trunc := fun x => some (truncR x)
  sin := Real.sin
  cos := Real.cos
  pi := Real.pi
  halfpi := Real.pi / 2
  half := 1 / 2

namespace RealArith
@[simp] theorem add_def (a b : ℝ) : Arith.add a b = a + b := rfl
@[simp] theorem sub_def (a b : ℝ) : Arith.sub a b = a - b := rfl
@[simp] theorem mul_def (a b : ℝ) : Arith.mul a b = a * b := rfl
@[simp] theorem div_def (a b : ℝ) : Arith.div a b = a / b := rfl
@[simp] theorem ofInt_def (i : Int) : (Arith.ofInt i : ℝ) = (i : ℝ) := rfl
@[simp] theorem pi_def : (Arith.pi : ℝ) = Real.pi := rfl
@[simp] theorem halfpi_def : (Arith.halfpi : ℝ) = Real.pi / 2 := rfl
@[simp] theorem half_def : (Arith.half : ℝ) = 1 / 2 := rfl
@[simp] theorem trunc_def (x : ℝ) : Arith.trunc x = some (truncR x) := rfl
@[simp] theorem sin_def (x : ℝ) : Arith.sin x = Real.sin x := rfl
@[simp] theorem cos_def (x : ℝ) : Arith.cos x = Real.cos x := rfl
@[simp] theorem lt_iff (a b : ℝ) : Arith.lt a b = true ↔ a < b := by
  show decide (a < b) = true ↔ _; simp
@[simp] theorem lt_false (a b : ℝ) : Arith.lt a b = false ↔ b ≤ a := by
  show decide (a < b) = false ↔ _; simp
@[simp] theorem le_iff (a b : ℝ) : Arith.le a b = true ↔ a ≤ b := by
  show decide (a ≤ b) = true ↔ _; simp
@[simp] theorem eqb_iff (a b : ℝ) : Arith.eqb a b = true ↔ a = b := by
  show decide (a = b) = true ↔ _; simp
end RealArith

open RealArith

theorem truncR_nonneg {x : ℝ} (h : 0 ≤ x) : truncR x = ⌊x⌋ := if_pos h

theorem truncR_mono {x y : ℝ} (h : x ≤ y) : truncR x ≤ truncR y := by
  unfold truncR
  split
  · rw [if_pos (by linarith)]; exact Int.floor_le_floor h
  · split
    · rename_i h1 h2
      have : ⌈x⌉ ≤ 0 := Int.ceil_le.mpr (by push_cast; linarith)
      have : 0 ≤ ⌊y⌋ := Int.floor_nonneg.mpr h2
      omega
    · exact Int.ceil_le_ceil h

@[simp] theorem toInt_real (x : ℝ) : toInt x = ok (truncR x) := rfl

theorem foldGt_real (t : ℝ) : foldGt t = if Real.pi / 2 < t then Real.pi - t else t := by
  unfold foldGt
  simp

theorem foldGt_le (t : ℝ) : foldGt t ≤ Real.pi / 2 := by
  rw [foldGt_real]; split <;> linarith

theorem foldGt_nonneg {t : ℝ} (h0 : 0 ≤ t) (h1 : t ≤ Real.pi) : 0 ≤ foldGt t := by
  rw [foldGt_real]; split <;> linarith

theorem foldGt_lt {t : ℝ} (h : t ≠ Real.pi / 2) : foldGt t < Real.pi / 2 := by
  rw [foldGt_real]
  split
  · linarith
  · rename_i h1; exact lt_of_le_of_ne (not_lt.mp h1) h

theorem foldGt_of_le {t : ℝ} (h : t ≤ Real.pi / 2) : foldGt t = t := by
  rw [foldGt_real, if_neg (by linarith)]

theorem tagLaw_real (N : Nat) : TagLaw ℝ N := by
  intro i _
  simp only [ofInt_def, add_def, half_def, trunc_def]
  rw [truncR_nonneg (by positivity)]
  congr 1
  rw [Int.floor_eq_iff]
  push_cast
  constructor <;> linarith

/-- Real grid spacing. -/
theorem dtheta_real (c : Cfg) : (c.dtheta : ℝ) = -(Real.pi / (c.lmax + 1)) := by
  unfold Cfg.dtheta
  simp only [sub_def, div_def, ofInt_def, pi_def]
  have : ((c.ntheta : Int) - c.margin) = (c.lmax + 1 : Int) := by unfold Cfg.ntheta; push_cast; ring
  rw [this]; push_cast; ring

theorem theta0_real (c : Cfg) : (c.theta0 : ℝ) = Real.pi + c.halfmargin * (Real.pi / (c.lmax + 1)) := by
  unfold Cfg.theta0
  rw [dtheta_real]
  simp only [sub_def, mul_def, ofInt_def, pi_def]
  push_cast; ring

theorem invDtheta_real (c : Cfg) : (c.invDtheta : ℝ) = -((c.lmax + 1) / Real.pi) := by
  unfold Cfg.invDtheta
  rw [dtheta_real]
  simp only [div_def, ofInt_def]
  have := Real.pi_ne_zero
  have h : (c.lmax : ℝ) + 1 ≠ 0 := by positivity
  field_simp
  push_cast; ring

/-- What is assumed about the environment in exact arithmetic: `std::sort` sorts, a schedule executes
every iteration once, rings have their length, and the NaN conversion of `get_latitude_tables` yields
some integer. -/
structure EnvOK (e : Env ℝ) : Prop where
  sort : ∀ l : List (ℝ × Nat), (e.srt l).Perm l ∧ (e.srt l).Pairwise (fun p q => p.1 ≤ q.1)
  sched : ∀ l, (e.sched l).Perm l
  nan : ∃ v, e.nan = ok v
  verb : SameVerb e.verb
  ring_len : ∀ h i, (e.ring h i).length = e.cfg.bufsize
  /-- every rank computes the rings it owns, whatever they are (from the kernel: `Num.kernelRings_eq`) -/
  kern : ∀ me mine, e.kern me mine = ok (mine.map (e.ring false), mine.map (e.ring true))

theorem betaToItheta_real (c : Cfg) (t : ℝ) : ∃ i, betaToItheta c t = ok i := by
  unfold betaToItheta
  simp only [toInt_real, ok_bind]
  exact ⟨_, rfl⟩

theorem laws_real {e : Env ℝ} (h : EnvOK e) : Laws e (fun _ => True) where
  verb := h.verb
  halfpi := trivial
  fold := fun _ _ => trivial
  fold_le := fun t _ => by rw [lt_false]; exact foldGt_le t
  asymm := fun a b _ _ h => by rw [lt_iff] at h; rw [lt_false]; exact h.le
  cotrans := fun a b c _ _ _ h => by
    simp only [lt_iff] at h ⊢
    rcases lt_or_ge a c with h1 | h1
    · exact Or.inl h1
    · exact Or.inr (lt_of_le_of_lt h1 h)
  sort := fun l _ => ⟨(h.sort l).1, (h.sort l).2.imp (fun hab => by rw [lt_false]; exact hab)⟩
  sched := h.sched
  nan := h.nan
  ring_len := h.ring_len
  kern := h.kern
  itheta_ok := fun t _ => betaToItheta_real e.cfg t
  itheta_anti := by
    intro a b _ _ ha hb hab i j hi hj
    rw [lt_false] at ha hb hab
    simp only [halfpi_def] at ha hb
    unfold betaToItheta at hi hj
    simp only [toInt_real, ok_bind, foldGt_of_le ha, foldGt_of_le hb, sub_def, mul_def] at hi hj
    have hm : truncR ((b - e.cfg.theta0) * e.cfg.invDtheta) ≤ truncR ((a - e.cfg.theta0) * e.cfg.invDtheta) := by
      apply truncR_mono
      rw [invDtheta_real]
      have hp : 0 ≤ ((e.cfg.lmax : ℝ) + 1) / Real.pi := by positivity
      nlinarith
    injection hi with hi
    injection hj with hj
    subst hi; subst hj
    split_ifs <;> omega

end Verif.Tod
