import Mathlib.GroupTheory.OrderOfElement
import Mathlib.Data.Fintype.EquivFin
import Mathlib.Data.Fintype.Prod
import Mathlib.Analysis.SpecialFunctions.Log.Basic
import Mathlib.Analysis.SpecialFunctions.Sqrt
import Mathlib.Tactic.Linarith

/-!
# The random number generator (C48)

`class planck_rng`, levels/cxxsupport/ls_rng.h:47-143.  `unsigned int` is `BitVec 32`.
-/

namespace Verif.Rng

/-- `unsigned int` -/
abbrev U32 := BitVec 32

/-- `x,y,z,w`, ls_rng.h:50 -/
structure S where
  x : U32
  y : U32
  z : U32
  w : U32
  deriving DecidableEq

/-- `v ^= v<<k` -/
def shl (k : ℕ) (v : U32) : U32 := v ^^^ (v <<< k)
/-- `v ^= v>>k` -/
def shr (k : ℕ) (v : U32) : U32 := v ^^^ (v >>> k)

/-- Body of the loop of `twiddle`, ls_rng.h:58-60. -/
def twiddle1 (v : U32) : U32 := shl 5 (shr 17 (shl 13 v))

/-- `twiddle`, ls_rng.h:54-62. -/
def twiddle (v : U32) : U32 := twiddle1^[9] v

/-- `int_rand_uni`, ls_rng.h:102-110: the new state (the returned value is the new `w`). -/
def step (s : S) : S :=
  let t := s.x ^^^ (s.x <<< 11)
  ⟨s.y, s.z, s.w, (s.w ^^^ (s.w >>> 19)) ^^^ (t ^^^ (t >>> 8))⟩

/-- `init_rng`, ls_rng.h:64-78. -/
def init (s : S) : S :=
  let x := if s.x = 0 then 123456789 else s.x
  let y := if s.y = 0 then 362436069 else s.y
  let z := if s.z = 0 then 521288629 else s.z
  let w := if s.w = 0 then 88675123 else s.w
  step^[16] ⟨twiddle x, twiddle y, twiddle z, twiddle w⟩

/-- The whole object, ls_rng.h:50-52. -/
structure Rng where
  s : S
  gset : ℝ
  empty : Bool

/-- `planck_rng(x1,y1,z1,w1)`, ls_rng.h:82-89. -/
noncomputable def Rng.new (a : S) : Rng := ⟨init a, 0, true⟩

/-- `seed(x1,y1,z1,w1)`, ls_rng.h:92-98: `gset` keeps its value. -/
def Rng.seed (r : Rng) (a : S) : Rng := ⟨init a, r.gset, true⟩

/-- `rand_uni`, ls_rng.h:113-116, in exact arithmetic (the double product is exact: a power of two times a 32 bit number). -/
noncomputable def uni (s : S) : ℝ × S := (1 / (1 + (0xFFFFFFFF : ℝ)) * ((step s).w.toNat : ℝ), step s)

/-- One attempt of the loop of `rand_gauss`, ls_rng.h:126-131: `v1`, `v2`, `rsq`. -/
noncomputable def attempt (s : S) : (ℝ × ℝ × ℝ) × S :=
  let a := uni s
  let v1 := 2 * a.1 - 1
  let b := uni a.2
  let v2 := 2 * b.1 - 1
  ((v1, v2, v1 * v1 + v2 * v2), b.2)

open Classical in
/-- `rand_gauss`, ls_rng.h:120-143; the rejection loop is followed for at most `fuel` attempts (`none`: still looping). -/
noncomputable def gauss (fuel : ℕ) (r : Rng) : Option (ℝ × Rng) :=
  if r.empty then go fuel r.s else some (r.gset, { r with empty := true })
where
  go : ℕ → S → Option (ℝ × Rng)
    | 0, _ => none
    | n + 1, s =>
      let a := attempt s
      if 1 ≤ a.1.2.2 ∨ a.1.2.2 = 0 then go n a.2
      else
        let fac := √(-2 * Real.log a.1.2.2 / a.1.2.2)
        some (a.1.2.1 * fac, ⟨a.2, a.1.1 * fac, false⟩)

/-! ## shifts -/

theorem shl_zero (k : ℕ) : shl k 0 = 0 := by simp [shl]
theorem shr_zero (k : ℕ) : shr k 0 = 0 := by simp [shr]

theorem shl_shl (k : ℕ) (v : U32) : shl k (shl k v) = shl (k + k) v := by
  unfold shl
  rw [BitVec.shiftLeft_xor_distrib, ← BitVec.shiftLeft_add]
  rw [BitVec.xor_assoc, ← BitVec.xor_assoc (v <<< k), BitVec.xor_self, BitVec.zero_xor]

theorem shr_shr (k : ℕ) (v : U32) : shr k (shr k v) = shr (k + k) v := by
  unfold shr
  rw [BitVec.ushiftRight_xor_distrib, ← BitVec.shiftRight_add]
  rw [BitVec.xor_assoc, ← BitVec.xor_assoc (v >>> k), BitVec.xor_self, BitVec.zero_xor]

theorem shl_big {k : ℕ} (hk : 32 ≤ k) (v : U32) : shl k v = v := by
  unfold shl
  rw [BitVec.shiftLeft_eq_zero hk, BitVec.xor_zero]

theorem shr_big {k : ℕ} (hk : 32 ≤ k) (v : U32) : shr k v = v := by
  unfold shr
  rw [BitVec.ushiftRight_eq_zero hk, BitVec.xor_zero]

/-- `v ^= v<<k` is undone by repeating it: it is a bijection. -/
theorem shl_inj {k : ℕ} (hk : 1 ≤ k) : Function.Injective (shl k) := by
  have key : ∀ n k, 32 ≤ k * 2 ^ n → 1 ≤ k → Function.Injective (shl k) := by
    intro n
    induction n with
    | zero => intro k h _ a b hab; rwa [shl_big (by simpa using h), shl_big (by simpa using h)] at hab
    | succ n ih =>
      intro k h h1 a b hab
      apply ih (k + k) (by rw [pow_succ] at h; nlinarith) (by omega)
      rw [← shl_shl, ← shl_shl, hab]
  exact key 5 k (by nlinarith) hk

theorem shr_inj {k : ℕ} (hk : 1 ≤ k) : Function.Injective (shr k) := by
  have key : ∀ n k, 32 ≤ k * 2 ^ n → 1 ≤ k → Function.Injective (shr k) := by
    intro n
    induction n with
    | zero => intro k h _ a b hab; rwa [shr_big (by simpa using h), shr_big (by simpa using h)] at hab
    | succ n ih =>
      intro k h h1 a b hab
      apply ih (k + k) (by rw [pow_succ] at h; nlinarith) (by omega)
      rw [← shr_shr, ← shr_shr, hab]
  exact key 5 k (by nlinarith) hk

theorem twiddle1_inj : Function.Injective twiddle1 := fun a b h =>
  shl_inj (by norm_num) (shr_inj (by norm_num) (shl_inj (by norm_num) h))

theorem twiddle_inj : Function.Injective twiddle := twiddle1_inj.iterate 9

theorem twiddle_zero : twiddle 0 = 0 := by
  have h : twiddle1 0 = 0 := by unfold twiddle1; rw [shl_zero, shr_zero, shl_zero]
  unfold twiddle
  exact Function.iterate_fixed h 9

theorem step_eq (s : S) : step s = ⟨s.y, s.z, s.w, shr 19 s.w ^^^ shr 8 (shl 11 s.x)⟩ := rfl

theorem step_inj : Function.Injective step := by
  rintro ⟨x, y, z, w⟩ ⟨x', y', z', w'⟩ h
  rw [step_eq, step_eq] at h
  simp only [S.mk.injEq] at h
  obtain ⟨rfl, rfl, rfl, h⟩ := h
  have this : shr 8 (shl 11 x) = shr 8 (shl 11 x') := by
    have h2 := congrArg (fun v => shr 19 w ^^^ v) h
    simpa only [← BitVec.xor_assoc, BitVec.xor_self, BitVec.zero_xor] using h2
  rw [shl_inj (by norm_num) (shr_inj (by norm_num) this)]

theorem step_zero : step ⟨0, 0, 0, 0⟩ = ⟨0, 0, 0, 0⟩ := by
  decide

/-! ## C48 -/

/-- States as tuples. -/
def S.equiv : S ≃ U32 × U32 × U32 × U32 where
  toFun s := (s.x, s.y, s.z, s.w)
  invFun p := ⟨p.1, p.2.1, p.2.2.1, p.2.2.2⟩
  left_inv _ := rfl
  right_inv _ := rfl

instance : Fintype U32 := Fintype.ofEquiv (Fin (2 ^ 32)) ⟨BitVec.ofFin, BitVec.toFin, fun _ => rfl, fun _ => rfl⟩
instance : Fintype S := Fintype.ofEquiv _ S.equiv.symm

/-- C48: the update of the generator is a bijection on states, and it is purely periodic: from every state, repeated calls
come back to that state. -/
theorem C48_bijection : Function.Bijective step ∧ ∀ s, ∃ p, 0 < p ∧ step^[p] s = s := by
  have hb : Function.Bijective step := Finite.injective_iff_bijective.mp step_inj
  refine ⟨hb, fun s => ?_⟩
  have h := isOfFinOrder_of_finite (Equiv.ofBijective step hb)
  obtain ⟨p, hp, he⟩ := isOfFinOrder_iff_pow_eq_one.mp h
  refine ⟨p, hp, ?_⟩
  have : (⇑(Equiv.ofBijective step hb))^[p] s = s := by
    rw [← Equiv.Perm.coe_pow, he]; rfl
  exact this

/-- C48: whatever the four seeds (zeros included), the state is never all-zero, neither after seeding nor after any number of
calls. -/
theorem C48_never_zero (a : S) (n : ℕ) : step^[n] (init a) ≠ ⟨0, 0, 0, 0⟩ := by
  have hinj : ∀ n, Function.Injective (step^[n]) := fun n => step_inj.iterate n
  have h0 : ∀ n, step^[n] ⟨0, 0, 0, 0⟩ = ⟨0, 0, 0, 0⟩ := fun n => Function.iterate_fixed step_zero n
  intro h
  have h1 := hinj n (h.trans (h0 n).symm)
  unfold init at h1
  have h2 := hinj 16 (h1.trans (h0 16).symm)
  simp only [S.mk.injEq] at h2
  have h3 := twiddle_inj (h2.1.trans twiddle_zero.symm)
  split at h3
  · exact absurd h3 (by decide)
  · rename_i hne; exact hne h3

/-- C48: the stream of outputs never dies: among any four consecutive outputs at least one is non-zero. -/
theorem C48_outputs_alive (a : S) (n : ℕ) : ∃ i < 4, (step^[n + i + 1] (init a)).w ≠ 0 := by
  by_contra hcon
  push Not at hcon
  apply C48_never_zero a (n + 4)
  have e : ∀ i, step^[n + i + 1] (init a) = step (step^[n + i] (init a)) := fun i => Function.iterate_succ_apply' _ _ _
  have w0 := hcon 0 (by norm_num)
  have w1 := hcon 1 (by norm_num)
  have w2 := hcon 2 (by norm_num)
  have w3 := hcon 3 (by norm_num)
  set s0 := step^[n + 0 + 1] (init a) with hs0
  have f1 : step^[n + 1 + 1] (init a) = step s0 := e 1
  have f2 : step^[n + 2 + 1] (init a) = step (step s0) := by rw [e 2, ← f1]
  have f3 : step^[n + 3 + 1] (init a) = step (step (step s0)) := by rw [e 3, ← f2]
  rw [f1] at w1; rw [f2] at w2; rw [f3] at w3
  rw [show n + 4 = n + 3 + 1 from rfl, f3]
  have : step (step (step s0)) = ⟨s0.w, (step s0).w, (step (step s0)).w, (step (step (step s0))).w⟩ := rfl
  rw [this, w0, w1, w2, w3]

/-- C48: uniform numbers lie in `[0,1)`. -/
theorem C48_uniform (s : S) : 0 ≤ (uni s).1 ∧ (uni s).1 < 1 := by
  have h : ((step s).w.toNat : ℝ) < 2 ^ 32 := by exact_mod_cast (step s).w.isLt
  unfold uni
  constructor
  · positivity
  · show 1 / (1 + (0xFFFFFFFF : ℝ)) * ((step s).w.toNat : ℝ) < 1
    have e : (1 + (0xFFFFFFFF : ℝ)) = 2 ^ 32 := by norm_num
    rw [e, one_div, ← div_eq_inv_mul, div_lt_one (by positivity)]
    exact h

/-- C48: re-seeding an old generator gives exactly the numbers of a new one with the same seeds, whatever happened before
(left-over second Gaussian number included): the next Gaussian number and the object after it are the same. -/
theorem C48_seed_fresh (r : Rng) (a : S) (fuel : ℕ) :
    (r.seed a).s = (Rng.new a).s ∧ gauss fuel (r.seed a) = gauss fuel (Rng.new a) := by
  refine ⟨rfl, ?_⟩
  unfold gauss Rng.seed Rng.new
  simp

/-- C48: when the rejection loop of `rand_gauss` ends, the accepted radius lies strictly between 0 and 1, so the logarithm is
negative, the square root is that of a positive number, and the two numbers produced have squared norm `-2 log rsq`. -/
theorem C48_gauss_defined {fuel : ℕ} {r r' : Rng} {v : ℝ} (he : r.empty = true) (h : gauss fuel r = some (v, r')) :
    ∃ rsq : ℝ, 0 < rsq ∧ rsq < 1 ∧ 0 < -2 * Real.log rsq / rsq ∧ v * v + r'.gset * r'.gset = -2 * Real.log rsq ∧
      r'.empty = false := by
  unfold gauss at h
  rw [he, if_pos rfl] at h
  have key : ∀ fuel s, gauss.go fuel s = some (v, r') → ∃ rsq : ℝ, 0 < rsq ∧ rsq < 1 ∧ 0 < -2 * Real.log rsq / rsq ∧
      v * v + r'.gset * r'.gset = -2 * Real.log rsq ∧ r'.empty = false := by
    intro fuel
    induction fuel with
    | zero => intro s h; simp [gauss.go] at h
    | succ n ih =>
      intro s h
      simp only [gauss.go] at h
      split at h
      · exact ih _ h
      · rename_i hn
        push Not at hn
        simp only [Option.some.injEq, Prod.mk.injEq] at h
        obtain ⟨hv, hr⟩ := h
        set v1 := (attempt s).1.1
        set v2 := (attempt s).1.2.1
        set q := (attempt s).1.2.2 with hq
        have hsum : q = v1 * v1 + v2 * v2 := rfl
        have hpos : 0 < q := lt_of_le_of_ne (by rw [hsum]; nlinarith [mul_self_nonneg v1, mul_self_nonneg v2]) (Ne.symm hn.2)
        have hlog := Real.log_neg hpos hn.1
        have hf : 0 < -2 * Real.log q / q := div_pos (by linarith) hpos
        refine ⟨q, hpos, hn.1, hf, ?_, by rw [← hr]⟩
        have hs := Real.mul_self_sqrt hf.le
        rw [← hv, ← hr]
        show v2 * √_ * (v2 * √_) + v1 * √_ * (v1 * √_) = _
        have : v2 * √(-2 * Real.log q / q) * (v2 * √(-2 * Real.log q / q)) +
            v1 * √(-2 * Real.log q / q) * (v1 * √(-2 * Real.log q / q)) =
            (v1 * v1 + v2 * v2) * (√(-2 * Real.log q / q) * √(-2 * Real.log q / q)) := by ring
        rw [this, hs, ← hsum]
        field_simp
  exact key fuel r.s h

/-- The zero seeds are replaced: not even they give the zero state. -/
example : step^[1000] (init ⟨0, 0, 0, 0⟩) ≠ ⟨0, 0, 0, 0⟩ := C48_never_zero _ _

end Verif.Rng
