import Verif.Util.Rng
import Mathlib.Algebra.Module.ZMod
import Mathlib.Data.Nat.Bitwise
import Mathlib.Dynamics.PeriodicPts.Defs
import Mathlib.Tactic.NormNum.Prime
import Mathlib.NumberTheory.LucasPrimality

/-!
# The period of the random number generator (C48)

ls_rng.h:30,46 promise "a period of 2^128 - 1".  The update `step` is linear over the field with two elements.  With the
characteristic polynomial `cpoly` (128 coefficients, checked by evaluation in the kernel, not trusted), the powers of `step` are
represented by polynomials of degree < 128, coded as the bits of natural numbers; `step^(2^128-1) = 1`, and for every prime `q`
dividing `2^128-1` the map `step^((2^128-1)/q) + 1` has an inverse, which is exhibited.
-/

namespace Verif.Rng

open Finset

instance : Add S := ⟨fun a b => ⟨a.x ^^^ b.x, a.y ^^^ b.y, a.z ^^^ b.z, a.w ^^^ b.w⟩⟩
instance : Zero S := ⟨⟨0, 0, 0, 0⟩⟩
instance : Neg S := ⟨fun a => a⟩

theorem add_def (a b : S) : a + b = ⟨a.x ^^^ b.x, a.y ^^^ b.y, a.z ^^^ b.z, a.w ^^^ b.w⟩ := rfl
theorem zero_def : (0 : S) = ⟨0, 0, 0, 0⟩ := rfl

instance : AddCommGroup S where
  add_assoc a b c := by simp [add_def, BitVec.xor_assoc]
  zero_add a := by simp [add_def, zero_def]
  add_zero a := by simp [add_def, zero_def]
  nsmul := nsmulRec
  zsmul := zsmulRec
  neg_add_cancel a := by show a + a = 0; simp [add_def, zero_def]
  add_comm a b := by simp [add_def, BitVec.xor_comm]

theorem add_self (a : S) : a + a = 0 := by simp [add_def, zero_def]

instance : Module (ZMod 2) S := AddCommGroup.zmodModule (by intro a; rw [two_nsmul, add_self])

theorem shl_xor (k : ℕ) (a b : U32) : shl k (a ^^^ b) = shl k a ^^^ shl k b := by
  unfold shl; rw [BitVec.shiftLeft_xor_distrib]; ac_rfl

theorem shr_xor (k : ℕ) (a b : U32) : shr k (a ^^^ b) = shr k a ^^^ shr k b := by
  unfold shr; rw [BitVec.ushiftRight_xor_distrib]; ac_rfl

theorem step_add (a b : S) : step (a + b) = step a + step b := by
  simp only [step_eq, add_def, S.mk.injEq, true_and, shl_xor, shr_xor]
  ac_rfl

/-- `step` as a linear map -/
def f : Module.End (ZMod 2) S :=
  (AddMonoidHom.mk' step step_add).toZModLinearMap 2

theorem f_apply (s : S) : f s = step s := rfl

theorem f_pow (n : ℕ) (s : S) : (f ^ n) s = step^[n] s := by
  rw [Module.End.pow_apply]; rfl

theorem end_add_self (g : Module.End (ZMod 2) S) : g + g = 0 := by
  ext s : 1
  exact add_self (g s)

/-- The polynomial in `f` whose coefficients are the bits of `a`. -/
def E (a : ℕ) : Module.End (ZMod 2) S := ∑ i ∈ range 130, if a.testBit i then f ^ i else 0

theorem E_xor (a b : ℕ) : E (a ^^^ b) = E a + E b := by
  unfold E
  rw [← sum_add_distrib]
  refine sum_congr rfl fun i _ => ?_
  rw [Nat.testBit_xor]
  cases a.testBit i <;> cases b.testBit i <;> simp [end_add_self]

theorem E_zero : E 0 = 0 := by simp [E]

theorem E_one : E 1 = 1 := by
  unfold E
  rw [sum_range_succ']
  have : ∀ i, Nat.testBit 1 (i + 1) = false := fun i => by simp [Nat.testBit_succ]
  simp [this]

theorem E_double {a : ℕ} (h : a < 2 ^ 129) : E (2 * a) = f * E a := by
  unfold E
  rw [mul_sum, sum_range_succ', sum_range_succ _ 129]
  have h0 : (2 * a).testBit 0 = false := by simp
  have h1 : a.testBit 129 = false := Nat.testBit_lt_two_pow h
  rw [h0, h1]
  simp only [Bool.false_eq_true, if_false, mul_zero, add_zero]
  refine sum_congr rfl fun i _ => ?_
  have : (2 * a).testBit (i + 1) = a.testBit i := by
    rw [Nat.testBit_succ]; congr 1; omega
  rw [this]
  split
  · rw [pow_succ']
  · simp

/-- Evaluation order for the kernel: `n` is reduced to a numeral before `k` is entered. -/
def force {α : Type} (n : ℕ) (k : ℕ → α) : α := Nat.rec (k 0) (fun m _ => k (m + 1)) n

theorem force_eq {α : Type} (n : ℕ) (k : ℕ → α) : force n k = k n := by cases n <;> rfl

/-- The characteristic polynomial of `step`. -/
def cpoly : ℕ := 0x1000000010046d8b3f985d65ffd3c8001

/-- `r ↦ x r` modulo `cpoly` -/
def dbl2 (r : ℕ) : ℕ := (2 * r) ^^^ (cpoly * (2 * r / 2 ^ 128))

/-- one step of the multiplication -/
def st (a b i r : ℕ) : ℕ := dbl2 r ^^^ (a * (b / 2 ^ i % 2))

/-- product modulo `cpoly` (Horner's scheme) -/
def mmGo (a b n : ℕ) : ℕ → ℕ := Nat.rec (fun r => r) (fun i ih r => force (st a b i r) ih) n

def mm (a b : ℕ) : ℕ := mmGo a b 128 0

/-- `x^e` modulo `cpoly` -/
def pwGo (e n : ℕ) : ℕ → ℕ :=
  Nat.rec (fun r => r) (fun i ih r => force (mm r r) fun q => force (if e / 2 ^ i % 2 = 0 then q else dbl2 q) ih) n

def pw (e : ℕ) : ℕ := pwGo e 128 1


/-! ## the arithmetic is right -/

theorem E_bit (a b : ℕ) : E (a * (b % 2)) = E (b % 2) * E a := by
  rcases Nat.mod_two_eq_zero_or_one b with h | h <;> rw [h]
  · rw [mul_zero, E_zero, zero_mul]
  · rw [mul_one, E_one, one_mul]

theorem dbl2_lt {r : ℕ} (h : r < 2 ^ 128) : dbl2 r < 2 ^ 128 := by
  unfold dbl2
  by_cases hr : 2 * r < 2 ^ 128
  · rw [Nat.div_eq_of_lt hr, mul_zero, Nat.xor_zero]; exact hr
  · have h1 : 2 * r / 2 ^ 128 = 1 := by omega
    rw [h1, mul_one]
    refine Nat.lt_pow_two_of_testBit _ fun i hi => ?_
    rw [Nat.testBit_xor]
    rcases Nat.eq_or_lt_of_le hi with rfl | hi
    · have e1 : (2 * r).testBit 128 = true := by
        rw [Nat.testBit_eq_decide_div_mod_eq, h1]; rfl
      have e2 : cpoly.testBit 128 = true := by decide
      rw [e1, e2]; rfl
    · have e : ∀ x, x < 2 ^ 129 → x.testBit i = false := fun x hx =>
        Nat.testBit_lt_two_pow (lt_of_lt_of_le hx (Nat.pow_le_pow_right (by norm_num) (by omega)))
      rw [e _ (by omega), e cpoly (by unfold cpoly; norm_num)]; rfl

theorem st_lt {a b i r : ℕ} (ha : a < 2 ^ 128) (hr : r < 2 ^ 128) : st a b i r < 2 ^ 128 := by
  refine Nat.xor_lt_two_pow (dbl2_lt hr) ?_
  rcases Nat.mod_two_eq_zero_or_one (b / 2 ^ i) with h | h <;> rw [h] <;> omega

section
variable (hc : E cpoly = 0)
include hc

theorem E_dbl2 {r : ℕ} (h : r < 2 ^ 128) : E (dbl2 r) = f * E r := by
  unfold dbl2
  have h1 : 2 * r / 2 ^ 128 = 0 ∨ 2 * r / 2 ^ 128 = 1 := by omega
  rcases h1 with h1 | h1 <;> rw [h1, E_xor, E_double (by omega)]
  · rw [mul_zero, E_zero, add_zero]
  · rw [mul_one, hc, add_zero]

theorem E_mmGo {a b : ℕ} (ha : a < 2 ^ 128) (n : ℕ) (r : ℕ) (hr : r < 2 ^ 128) (hb : b < 2 ^ 128)
    (h : E r = E (b / 2 ^ n) * E a) : E (mmGo a b n r) = E b * E a ∧ mmGo a b n r < 2 ^ 128 := by
  induction n generalizing r with
  | zero => exact ⟨by simpa [mmGo] using h, hr⟩
  | succ n ih =>
    have : mmGo a b (n + 1) r = mmGo a b n (st a b n r) := by
      show force _ _ = _
      rw [force_eq]; rfl
    rw [this]
    refine ih _ (st_lt ha hr) ?_
    unfold st
    rw [E_xor, E_dbl2 hc hr, h, E_bit, ← mul_assoc, ← E_double, ← add_mul, ← E_xor]
    · congr 2
      have e : b / 2 ^ (n + 1) = b / 2 ^ n / 2 := by rw [pow_succ, Nat.div_div_eq_div_mul]
      rw [e]
      set x := b / 2 ^ n
      have : ∀ i, (2 * (x / 2) ^^^ x % 2).testBit i = x.testBit i := by
        intro i
        rw [Nat.testBit_xor]
        cases i with
        | zero => simp [Nat.testBit_zero]
        | succ i =>
          simp only [Nat.testBit_succ]
          have e1 : 2 * (x / 2) / 2 = x / 2 := by omega
          have e2 : x % 2 / 2 = 0 := by omega
          rw [e1, e2]; simp
      exact (Nat.eq_of_testBit_eq this)
    · exact lt_of_le_of_lt (Nat.div_le_self _ _) (by omega)

theorem E_mm {a b : ℕ} (ha : a < 2 ^ 128) (hb : b < 2 ^ 128) : E (mm a b) = E b * E a ∧ mm a b < 2 ^ 128 :=
  E_mmGo hc ha 128 0 (by norm_num) hb (by rw [Nat.div_eq_of_lt hb, E_zero, zero_mul])

theorem E_pwGo (e n r : ℕ) (hr : r < 2 ^ 128) (h : E r = f ^ (e / 2 ^ n)) :
    E (pwGo e n r) = f ^ e ∧ pwGo e n r < 2 ^ 128 := by
  induction n generalizing r with
  | zero => exact ⟨by simpa [pwGo] using h, hr⟩
  | succ n ih =>
    have e1 : pwGo e (n + 1) r = pwGo e n (if e / 2 ^ n % 2 = 0 then mm r r else dbl2 (mm r r)) := by
      have : pwGo e (n + 1) r = force (mm r r) (fun q => force (if e / 2 ^ n % 2 = 0 then q else dbl2 q) (pwGo e n)) := rfl
      rw [this, force_eq, force_eq]
    obtain ⟨m1, m2⟩ := E_mm hc hr hr
    have e2 : e / 2 ^ (n + 1) = e / 2 ^ n / 2 := by rw [pow_succ, Nat.div_div_eq_div_mul]
    rw [e1]
    split
    · refine ih _ m2 ?_
      rw [m1, h, ← pow_add]; congr 1; omega
    · refine ih _ (dbl2_lt m2) ?_
      rw [E_dbl2 hc m2, m1, h, ← pow_add, ← pow_succ']; congr 1; omega

theorem E_pw (e : ℕ) (he : e < 2 ^ 128) : E (pw e) = f ^ e ∧ pw e < 2 ^ 128 :=
  E_pwGo hc e 128 1 (by norm_num) (by rw [Nat.div_eq_of_lt he, E_one, pow_zero])

end

/-! ## the characteristic polynomial -/

/-- a state coded in one number -/
def enc (s : S) : ℕ := s.x.toNat + 2 ^ 32 * s.y.toNat + 2 ^ 64 * s.z.toNat + 2 ^ 96 * s.w.toNat

def dec (n : ℕ) : S := ⟨BitVec.ofNat 32 n, BitVec.ofNat 32 (n / 2 ^ 32), BitVec.ofNat 32 (n / 2 ^ 64), BitVec.ofNat 32 (n / 2 ^ 96)⟩

/-- `step` on codes -/
def stepN (n : ℕ) : ℕ :=
  force (n % 2 ^ 32) fun x => force (n / 2 ^ 96) fun w => force (x ^^^ (x * 2 ^ 11 % 2 ^ 32)) fun t =>
    n / 2 ^ 32 + 2 ^ 96 * ((w ^^^ (w / 2 ^ 19)) ^^^ (t ^^^ (t / 2 ^ 8)))

theorem dec_stepN (n : ℕ) (h : n < 2 ^ 128) : stepN n < 2 ^ 128 ∧ dec (stepN n) = step (dec n) := by
  have hx : n % 2 ^ 32 < 2 ^ 32 := Nat.mod_lt _ (by norm_num)
  have hw : n / 2 ^ 96 < 2 ^ 32 := by omega
  set x := n % 2 ^ 32 with hxd
  set w := n / 2 ^ 96 with hwd
  set t := x ^^^ (x * 2 ^ 11 % 2 ^ 32) with ht
  have ht' : t < 2 ^ 32 := Nat.xor_lt_two_pow hx (Nat.mod_lt _ (by norm_num))
  set W := (w ^^^ (w / 2 ^ 19)) ^^^ (t ^^^ (t / 2 ^ 8)) with hW
  have hW' : W < 2 ^ 32 := Nat.xor_lt_two_pow (Nat.xor_lt_two_pow hw (by omega)) (Nat.xor_lt_two_pow ht' (by omega))
  have e : stepN n = n / 2 ^ 32 + 2 ^ 96 * W := by
    unfold stepN
    rw [force_eq, force_eq, force_eq]
  rw [e]
  clear_value W
  refine ⟨by omega, ?_⟩
  unfold dec step
  simp only [S.mk.injEq]
  refine ⟨?_, ?_, ?_, ?_⟩ <;> apply BitVec.eq_of_toNat_eq <;> simp only [BitVec.toNat_ofNat]
  · omega
  · omega
  · omega
  · simp only [BitVec.toNat_xor, BitVec.toNat_ushiftRight, BitVec.toNat_shiftLeft, BitVec.toNat_ofNat, Nat.shiftLeft_eq,
      Nat.shiftRight_eq_div_pow]
    rw [← hxd, ← ht, ← hwd, Nat.mod_eq_of_lt hw, ← hW]
    omega

theorem dec_xor (a b : ℕ) : dec (a ^^^ b) = dec a + dec b := by
  have : ∀ k, BitVec.ofNat 32 ((a ^^^ b) / 2 ^ k) = BitVec.ofNat 32 (a / 2 ^ k) ^^^ BitVec.ofNat 32 (b / 2 ^ k) := by
    intro k
    apply BitVec.eq_of_getLsbD_eq
    intro i hi
    rw [BitVec.getLsbD_xor, BitVec.getLsbD_ofNat, BitVec.getLsbD_ofNat, BitVec.getLsbD_ofNat]
    simp [Nat.testBit_div_two_pow, hi]
  simp only [dec, add_def, S.mk.injEq, this, and_true]
  simpa using this 0

theorem dec_zero : dec 0 = 0 := by rfl

theorem dec_enc (s : S) : enc s < 2 ^ 128 ∧ dec (enc s) = s := by
  obtain ⟨x, y, z, w⟩ := s
  have := x.isLt; have := y.isLt; have := z.isLt; have := w.isLt
  refine ⟨by unfold enc; dsimp only; omega, ?_⟩
  simp only [dec, enc, S.mk.injEq]
  refine ⟨?_, ?_, ?_, ?_⟩ <;> apply BitVec.eq_of_toNat_eq <;> simp only [BitVec.toNat_ofNat] <;> omega

/-- the polynomial `c` in `step`, applied to the state with code `n`; result added to `acc` -/
def evGo (m : ℕ) : ℕ → ℕ → ℕ → ℕ :=
  Nat.rec (fun _ _ acc => acc)
    (fun _ ih c n acc => force (acc ^^^ (n * (c % 2))) fun acc => force (stepN n) fun n => force (c / 2) fun c => ih c n acc) m

theorem evGo_eq (m c n acc : ℕ) (hn : n < 2 ^ 128) :
    dec (evGo m c n acc) = dec acc + ∑ i ∈ range m, if c.testBit i then (f ^ i) (dec n) else 0 := by
  induction m generalizing c n acc with
  | zero => simp [evGo]
  | succ m ih =>
    have e : evGo (m + 1) c n acc = evGo m (c / 2) (stepN n) (acc ^^^ (n * (c % 2))) := by
      have : evGo (m + 1) c n acc = force (acc ^^^ (n * (c % 2))) fun acc => force (stepN n) fun n => force (c / 2) fun c =>
        evGo m c n acc := rfl
      rw [this, force_eq, force_eq, force_eq]
    obtain ⟨h1, h2⟩ := dec_stepN n hn
    rw [e, ih _ _ _ h1, h2, dec_xor, sum_range_succ']
    have e1 : dec (n * (c % 2)) = if c.testBit 0 then (f ^ 0) (dec n) else 0 := by
      rw [Nat.testBit_zero]
      rcases Nat.mod_two_eq_zero_or_one c with h | h <;> rw [h]
      · rw [mul_zero, dec_zero]; simp
      · simp
    have e2 : ∀ i, (if (c / 2).testBit i then (f ^ i) (step (dec n)) else 0) =
        if c.testBit (i + 1) then (f ^ (i + 1)) (dec n) else 0 := by
      intro i
      rw [Nat.testBit_succ, pow_succ]; rfl
    rw [e1, sum_congr rfl fun i _ => e2 i]
    abel

set_option maxRecDepth 100000 in
/-- Cayley-Hamilton, on the basis; a computation of the kernel. -/
theorem cpoly_basis : ∀ k < 128, evGo 130 cpoly (2 ^ k) 0 = 0 := by decide +kernel

theorem E_apply (a : ℕ) (s : S) : E a s = ∑ i ∈ range 130, if a.testBit i then (f ^ i) s else 0 := by
  unfold E
  rw [LinearMap.sum_apply]
  refine sum_congr rfl fun i _ => ?_
  split <;> rfl

attribute [irreducible] E

theorem E_cpoly : E cpoly = 0 := by
  have key : ∀ k ≤ 128, ∀ n < 2 ^ k, E cpoly (dec n) = 0 := by
    intro k
    induction k with
    | zero => intro _ n hn; have : n = 0 := by simpa using hn
              rw [this, dec_zero, map_zero]
    | succ k ih =>
      intro hk n hn
      by_cases h : n < 2 ^ k
      · exact ih (by omega) n h
      · have h1 : n ^^^ 2 ^ k < 2 ^ k := by
          refine Nat.lt_pow_two_of_testBit _ fun i hi => ?_
          rw [Nat.testBit_xor, Nat.testBit_two_pow]
          rcases Nat.eq_or_lt_of_le hi with rfl | hi
          · have h1 : n / 2 ^ k = 1 := by
              rw [pow_succ] at hn
              exact Nat.div_eq_of_lt_le (by omega) (by omega)
            rw [Nat.testBit_eq_decide_div_mod_eq, h1]; simp
          · rw [Nat.testBit_lt_two_pow (lt_of_lt_of_le hn (Nat.pow_le_pow_right (by norm_num) (by omega)))]
            simp; omega
        have h2 : n = (n ^^^ 2 ^ k) ^^^ 2 ^ k := by rw [Nat.xor_assoc, Nat.xor_self, Nat.xor_zero]
        rw [h2, dec_xor, map_add, ih (by omega) _ h1, zero_add, E_apply]
        have := evGo_eq 130 cpoly (2 ^ k) 0 (Nat.pow_lt_pow_right (by norm_num) (by omega))
        rw [cpoly_basis k (by omega), dec_zero, zero_add] at this
        exact this.symm
  ext s : 1
  obtain ⟨h1, h2⟩ := dec_enc s
  rw [← h2]
  exact key 128 le_rfl _ h1

/-! ## the order of `step` -/

/-- `2^128 - 1` -/
abbrev NN : ℕ := 2 ^ 128 - 1

set_option maxRecDepth 100000 in
theorem pw_NN : pw NN = 1 := by decide +kernel

theorem f_NN : f ^ NN = 1 := by
  rw [← (E_pw E_cpoly NN (by decide)).1, pw_NN, E_one]

/-- no non-zero state is fixed by the `e`-th power -/
theorem no_fixed {e u : ℕ} (he : e < 2 ^ 128) (hu : u < 2 ^ 128) (h : mm (pw e ^^^ 1) u = 1) {s : S} (hs : step^[e] s = s) :
    s = 0 := by
  obtain ⟨h1, h2⟩ := E_pw E_cpoly e he
  have h3 := (E_mm E_cpoly (Nat.xor_lt_two_pow h2 (by norm_num : 1 < 2 ^ 128)) hu).1
  rw [h, E_one, E_xor, h1, E_one] at h3
  have h5 := congrArg (fun g : Module.End (ZMod 2) S => g s) h3
  simp only [Module.End.mul_apply, LinearMap.add_apply, Module.End.one_apply] at h5
  have h6 : (f ^ e) s = s := (f_pow e s).trans hs
  rw [h6] at h5
  exact h5.trans ((congrArg (E u) (add_self s)).trans (map_zero (E u)))

/-- `3^e mod p` by repeated squaring -/
def pmGo (e n : ℕ) : ℕ → ℕ :=
  Nat.rec (fun r => r)
    (fun i ih r => force (r * r % 67280421310721) fun q => force (q * 3 ^ (e / 2 ^ i % 2) % 67280421310721) ih) n

theorem pmGo_eq (e n r : ℕ) (h : r % 67280421310721 = 3 ^ (e / 2 ^ n) % 67280421310721) :
    pmGo e n r % 67280421310721 = 3 ^ e % 67280421310721 := by
  induction n generalizing r with
  | zero => simpa [pmGo] using h
  | succ n ih =>
    have e1 : pmGo e (n + 1) r = pmGo e n (r * r % 67280421310721 * 3 ^ (e / 2 ^ n % 2) % 67280421310721) := by
      have : pmGo e (n + 1) r = force (r * r % 67280421310721) fun q => force (q * 3 ^ (e / 2 ^ n % 2) % 67280421310721) (pmGo e n) :=
        rfl
      rw [this, force_eq, force_eq]
    rw [e1]
    refine ih _ ?_
    have e2 : e / 2 ^ n = e / 2 ^ (n + 1) + e / 2 ^ (n + 1) + e / 2 ^ n % 2 := by
      have : e / 2 ^ (n + 1) = e / 2 ^ n / 2 := by rw [pow_succ, Nat.div_div_eq_div_mul]
      omega
    conv_rhs => rw [e2, pow_add, pow_add]
    rw [Nat.mod_mod]
    exact (Nat.ModEq.mul_right _ ((Nat.mod_modEq _ _).trans (Nat.ModEq.mul h h)))

theorem pm_ne {e r : ℕ} (he : e < 2 ^ 47) (h : pmGo e 47 1 = r) (hr : r % 67280421310721 ≠ 1) :
    (3 : ZMod 67280421310721) ^ e ≠ 1 := by
  intro h4
  have h5 : ((3 ^ e : ℕ) : ZMod 67280421310721) = ((1 : ℕ) : ZMod 67280421310721) := by
    rw [Nat.cast_pow, Nat.cast_one]; exact h4
  rw [ZMod.natCast_eq_natCast_iff'] at h5
  rw [← pmGo_eq e 47 1 (by rw [Nat.div_eq_of_lt he, pow_zero]), h] at h5
  exact hr h5

theorem prime_big : Nat.Prime 67280421310721 := by
  refine lucas_primality _ (3 : ZMod 67280421310721) ?_ ?_
  · have h : ((3 ^ 67280421310720 : ℕ) : ZMod 67280421310721) = ((1 : ℕ) : ZMod 67280421310721) := by
      rw [ZMod.natCast_eq_natCast_iff', ← pmGo_eq 67280421310720 47 1 (by rw [Nat.div_eq_of_lt (by norm_num), pow_zero])]
      decide +kernel
    rw [Nat.cast_pow, Nat.cast_one] at h
    exact h
  · intro q hq hd
    have hl : (67280421310721 - 1 : ℕ) = 2 ^ 8 * 5 * 47 * 373 * 2998279 := by norm_num
    have p1 : Nat.Prime 2998279 := by norm_num
    have p2 : Nat.Prime 373 := by norm_num
    have p3 : Nat.Prime 47 := by norm_num
    have hq' : q = 2 ∨ q = 5 ∨ q = 47 ∨ q = 373 ∨ q = 2998279 := by
      rw [hl] at hd
      rcases (Nat.Prime.dvd_mul hq).mp hd with hd | hd
      · rcases (Nat.Prime.dvd_mul hq).mp hd with hd | hd
        · rcases (Nat.Prime.dvd_mul hq).mp hd with hd | hd
          · rcases (Nat.Prime.dvd_mul hq).mp hd with hd | hd
            · exact Or.inl ((Nat.prime_dvd_prime_iff_eq hq Nat.prime_two).mp (hq.dvd_of_dvd_pow hd))
            · exact Or.inr (Or.inl ((Nat.prime_dvd_prime_iff_eq hq Nat.prime_five).mp hd))
          · exact Or.inr (Or.inr (Or.inl ((Nat.prime_dvd_prime_iff_eq hq p3).mp hd)))
        · exact Or.inr (Or.inr (Or.inr (Or.inl ((Nat.prime_dvd_prime_iff_eq hq p2).mp hd))))
      · exact Or.inr (Or.inr (Or.inr (Or.inr ((Nat.prime_dvd_prime_iff_eq hq p1).mp hd))))
    rcases hq' with rfl | rfl | rfl | rfl | rfl <;> norm_num only <;> refine pm_ne (by norm_num) rfl ?_ <;> decide +kernel

theorem NN_factor : NN = 3 * 5 * 17 * 257 * 641 * 65537 * 274177 * 6700417 * 67280421310721 := by decide

theorem prime_dvd_NN {p : ℕ} (hp : p.Prime) (h : p ∣ NN) : p = 3 ∨ p = 5 ∨ p = 17 ∨ p = 257 ∨ p = 641 ∨ p = 65537 ∨
    p = 274177 ∨ p = 6700417 ∨ p = 67280421310721 := by
  rw [NN_factor] at h
  simp only [Nat.Prime.dvd_mul hp] at h
  have e : ∀ {q : ℕ}, q.Prime → p ∣ q → p = q := fun hq h => (Nat.prime_dvd_prime_iff_eq hp hq).mp h
  rcases h with (((((((h | h) | h) | h) | h) | h) | h) | h) | h
  · exact Or.inl (e (by norm_num) h)
  · exact Or.inr (Or.inl (e (by norm_num) h))
  · exact Or.inr (Or.inr (Or.inl (e (by norm_num) h)))
  · exact Or.inr (Or.inr (Or.inr (Or.inl (e (by norm_num) h))))
  · exact Or.inr (Or.inr (Or.inr (Or.inr (Or.inl (e (by norm_num) h)))))
  · exact Or.inr (Or.inr (Or.inr (Or.inr (Or.inr (Or.inl (e (by norm_num) h))))))
  · exact Or.inr (Or.inr (Or.inr (Or.inr (Or.inr (Or.inr (Or.inl (e (by norm_num) h)))))))
  · exact Or.inr (Or.inr (Or.inr (Or.inr (Or.inr (Or.inr (Or.inr (Or.inl (e (by norm_num) h))))))))
  · exact Or.inr (Or.inr (Or.inr (Or.inr (Or.inr (Or.inr (Or.inr (Or.inr (e prime_big h))))))))

set_option maxRecDepth 100000 in
theorem fixed_zero {p : ℕ} (hp : p.Prime) (h : p ∣ NN) {s : S} (hs : step^[NN / p] s = s) : s = 0 := by
  rcases prime_dvd_NN hp h with rfl | rfl | rfl | rfl | rfl | rfl | rfl | rfl | rfl
  · exact no_fixed (u := 133953335144028078570501892093482299452) (by decide +kernel) (by decide +kernel) (by decide +kernel) hs
  · exact no_fixed (u := 151794906280615946920587260728475445023) (by decide +kernel) (by decide +kernel) (by decide +kernel) hs
  · exact no_fixed (u := 288676104794235856817578729415729568722) (by decide +kernel) (by decide +kernel) (by decide +kernel) hs
  · exact no_fixed (u := 140239344036719843198371133677329421916) (by decide +kernel) (by decide +kernel) (by decide +kernel) hs
  · exact no_fixed (u := 272365965476946169307397722556321934694) (by decide +kernel) (by decide +kernel) (by decide +kernel) hs
  · exact no_fixed (u := 19606021719553718632817052679888491436) (by decide +kernel) (by decide +kernel) (by decide +kernel) hs
  · exact no_fixed (u := 123238532970663673086441209674178830033) (by decide +kernel) (by decide +kernel) (by decide +kernel) hs
  · exact no_fixed (u := 97083650747657427314725846816444512388) (by decide +kernel) (by decide +kernel) (by decide +kernel) hs
  · exact no_fixed (u := 71481420630604488033091811775364421675) (by decide +kernel) (by decide +kernel) (by decide +kernel) hs

/-- every non-zero state has period exactly `2^128 - 1` -/
theorem minimalPeriod_step {s : S} (hs : s ≠ 0) : Function.minimalPeriod step s = NN := by
  have h1 : Function.IsPeriodicPt step NN s := by
    show step^[NN] s = s
    rw [← f_pow, f_NN]; rfl
  have h2 := h1.minimalPeriod_dvd
  by_contra hne
  obtain ⟨k, hk⟩ := h2
  have hk1 : k ≠ 1 := by rintro rfl; rw [mul_one] at hk; exact hne hk.symm
  obtain ⟨p, hp, hpk⟩ := Nat.exists_prime_and_dvd hk1
  obtain ⟨j, rfl⟩ := hpk
  refine hs (fixed_zero hp (hk ▸ ⟨Function.minimalPeriod step s * j, by ring⟩) ?_)
  have h3 : Function.IsPeriodicPt step (NN / p) s := by
    have : NN / p = Function.minimalPeriod step s * j := by
      rw [hk]
      rw [show Function.minimalPeriod step s * (p * j) = p * (Function.minimalPeriod step s * j) by ring]
      exact Nat.mul_div_cancel_left _ hp.pos
    rw [this]
    exact (Function.isPeriodicPt_minimalPeriod step s).mul_const j
  exact h3

/-! ## C48: the period -/

theorem init_ne_zero (a : S) : init a ≠ 0 := C48_never_zero a 0

/-- **C48** The period promised in the header: whatever the seeds, the generator returns to the state after seeding after
`k` calls exactly if `k` is a multiple of `2^128 - 1`. -/
theorem C48_period (a : S) (k : ℕ) : step^[k] (init a) = init a ↔ 2 ^ 128 - 1 ∣ k := by
  have h := minimalPeriod_step (init_ne_zero a)
  show _ ↔ NN ∣ k
  rw [← h]
  exact (Function.isPeriodicPt_iff_minimalPeriod_dvd (f := step) (x := init a) (n := k))

/-- The `i`-th number returned by `int_rand_uni` after seeding. -/
def out (a : S) (i : ℕ) : U32 := (step^[i + 1] (init a)).w

/-- The state is the last four numbers returned. -/
theorem state_out (a : S) (i : ℕ) : step^[i + 4] (init a) = ⟨out a i, out a (i + 1), out a (i + 2), out a (i + 3)⟩ := by
  unfold out
  have e : ∀ s, step (step (step s)) = ⟨s.w, (step s).w, (step (step s)).w, (step (step (step s))).w⟩ := fun s => rfl
  have := e (step^[i + 1] (init a))
  simp only [← Function.iterate_succ_apply' step] at this
  exact this

/-- **C48** The sequence of returned numbers has the same period: shifting it by `k` leaves it unchanged exactly if `k` is a
multiple of `2^128 - 1`. -/
theorem C48_output_period (a : S) (k : ℕ) : (∀ i, out a (i + k) = out a i) ↔ 2 ^ 128 - 1 ∣ k := by
  rw [← C48_period a k]
  constructor
  · intro h
    have h1 : step^[4] (step^[k] (init a)) = step^[4] (init a) := by
      have h2 := state_out a k
      have h3 := state_out a 0
      have g0 := h 0; have g1 := h 1; have g2 := h 2; have g3 := h 3
      rw [← Function.iterate_add_apply, Nat.add_comm, h2, show 4 = 0 + 4 from rfl, h3]
      simp only [Nat.zero_add] at g0 ⊢
      rw [g0, Nat.add_comm k 1, g1, Nat.add_comm k 2, g2, Nat.add_comm k 3, g3]
    exact (step_inj.iterate 4) h1
  · intro h i
    unfold out
    rw [show i + k + 1 = i + 1 + k by omega, Function.iterate_add_apply, h]

theorem card_S : Fintype.card S = 2 ^ 128 := by
  rw [Fintype.card_congr S.equiv, Fintype.card_prod, Fintype.card_prod, Fintype.card_prod]
  have : Fintype.card U32 = 2 ^ 32 := by
    rw [Fintype.card_congr (⟨BitVec.toFin, BitVec.ofFin, fun _ => rfl, fun _ => rfl⟩ : U32 ≃ Fin (2 ^ 32)), Fintype.card_fin]
  rw [this]
  norm_num

theorem reach {s t : S} (hs : s ≠ 0) (ht : t ≠ 0) : ∃ n < NN, step^[n] s = t := by
  have h0 : ∀ n, step^[n] s ≠ 0 := by
    intro n h
    exact hs ((step_inj.iterate n) (h.trans (Function.iterate_fixed step_zero n).symm))
  let g : Fin NN → {x : S // x ≠ 0} := fun n => ⟨step^[n.1] s, h0 n.1⟩
  have hg : Function.Injective g := by
    intro m n h
    have h1 : step^[m.1] s = step^[n.1] s := congrArg Subtype.val h
    have h2 := Function.iterate_injOn_Iio_minimalPeriod (f := step) (x := s)
    rw [minimalPeriod_step hs] at h2
    exact Fin.ext (h2 m.2 n.2 h1)
  have hcard : Fintype.card {x : S // x ≠ 0} = NN := by
    rw [Fintype.card_subtype_compl, card_S, Fintype.card_subtype_eq]
  have hb := (Fintype.bijective_iff_injective_and_card g).mpr ⟨hg, by rw [hcard, Fintype.card_fin]⟩
  obtain ⟨n, hn⟩ := hb.2 ⟨t, ht⟩
  exact ⟨n.1, n.2, congrArg Subtype.val hn⟩

/-- **C48** From every seeding every state except the all-zero one is reached, each exactly once per period. -/
theorem C48_all_states (a t : S) (ht : t ≠ ⟨0, 0, 0, 0⟩) : ∃! n, n < 2 ^ 128 - 1 ∧ step^[n] (init a) = t := by
  obtain ⟨n, h1, h2⟩ := reach (init_ne_zero a) (t := t) ht
  refine ⟨n, ⟨h1, h2⟩, ?_⟩
  rintro m ⟨m1, m2⟩
  have h3 := Function.iterate_injOn_Iio_minimalPeriod (f := step) (x := init a)
  rw [minimalPeriod_step (init_ne_zero a)] at h3
  exact h3 m1 h1 (m2.trans h2.symm)

/-- **C48** `rand_gauss` returns: the rejection loop ends for every generator whose state is not all-zero - by C48_never_zero,
for every generator a program can construct. -/
theorem C48_gauss_terminates (r : Rng) (hr : r.s ≠ ⟨0, 0, 0, 0⟩) : ∃ fuel v r', gauss fuel r = some (v, r') := by
  by_cases he : r.empty = true
  · -- a state in front of two numbers that are accepted
    obtain ⟨g, hg⟩ := Function.bijective_iff_has_inverse.mp C48_bijection.1
    set t : S := g (g ⟨0, 0, 0x80000000, 0x90000000⟩) with ht
    have ht2 : step (step t) = ⟨0, 0, 0x80000000, 0x90000000⟩ := by rw [ht, hg.2, hg.2]
    have ht1 : (step t).w = 0x80000000 := by
      have : (step (step t)).z = (step t).w := rfl
      rw [← this, ht2]
    have ht0 : t ≠ 0 := by
      intro h
      rw [h] at ht1
      exact absurd ht1 (by decide)
    obtain ⟨n, -, hn⟩ := reach (s := r.s) hr ht0
    -- an even number of calls leads there, because the period is odd
    obtain ⟨k, hk⟩ : ∃ k, step^[2 * k] r.s = t := by
      rcases Nat.even_or_odd' n with ⟨k, rfl | rfl⟩
      · exact ⟨k, hn⟩
      · refine ⟨k + 2 ^ 127, ?_⟩
        have hp : step^[NN] r.s = r.s := by rw [← f_pow, f_NN]; rfl
        have : 2 * (k + 2 ^ 127) = 2 * k + 1 + NN := by unfold NN; omega
        rw [this, Function.iterate_add_apply, hp, hn]
    have hatt : ∀ s, (attempt s).2 = step^[2] s := fun s => rfl
    have hacc : ∀ s, s = t → ∃ v r', ∀ m, gauss.go (m + 1) s = some (v, r') := by
      intro s hst
      have h1 : (attempt s).1.1 = 0 := by
        show 2 * (uni s).1 - 1 = 0
        unfold uni
        dsimp only
        rw [hst, ht1, show BitVec.toNat (2147483648 : U32) = 2147483648 by decide]
        norm_num
      have h2 : (attempt s).1.2.1 = 1 / 8 := by
        show 2 * (uni (step s)).1 - 1 = 1 / 8
        unfold uni
        dsimp only
        rw [hst, ht2]
        dsimp only
        rw [show BitVec.toNat (2415919104 : U32) = 2415919104 by decide]
        norm_num
      have h3 : (attempt s).1.2.2 = 1 / 64 := by
        have : (attempt s).1.2.2 = (attempt s).1.1 * (attempt s).1.1 + (attempt s).1.2.1 * (attempt s).1.2.1 := rfl
        rw [this, h1, h2]; norm_num
      have h4 : ¬(1 ≤ (attempt s).1.2.2 ∨ (attempt s).1.2.2 = 0) := by rw [h3]; norm_num
      refine ⟨(attempt s).1.2.1 * √(-2 * Real.log (attempt s).1.2.2 / (attempt s).1.2.2),
        ⟨(attempt s).2, (attempt s).1.1 * √(-2 * Real.log (attempt s).1.2.2 / (attempt s).1.2.2), false⟩, fun m => ?_⟩
      unfold gauss.go
      rw [if_neg h4]
    have key : ∀ k s, step^[2 * k] s = t → ∃ fuel v r', gauss.go fuel s = some (v, r') := by
      intro k
      induction k with
      | zero =>
        intro s h
        obtain ⟨v, r', h⟩ := hacc s h
        exact ⟨1, v, r', h 0⟩
      | succ k ih =>
        intro s h
        rw [show 2 * (k + 1) = 2 * k + 2 by ring, Function.iterate_add_apply] at h
        obtain ⟨fuel, v, r', h'⟩ := ih _ h
        by_cases hc : 1 ≤ (attempt s).1.2.2 ∨ (attempt s).1.2.2 = 0
        · refine ⟨fuel + 1, v, r', ?_⟩
          unfold gauss.go
          rw [if_pos hc, hatt]
          exact h'
        · refine ⟨1, (attempt s).1.2.1 * √(-2 * Real.log (attempt s).1.2.2 / (attempt s).1.2.2),
            ⟨(attempt s).2, (attempt s).1.1 * √(-2 * Real.log (attempt s).1.2.2 / (attempt s).1.2.2), false⟩, ?_⟩
          unfold gauss.go
          rw [if_neg hc]
    obtain ⟨fuel, v, r', h⟩ := key k r.s hk
    refine ⟨fuel, v, r', ?_⟩
    unfold gauss
    rw [if_pos he, h]
  · exact ⟨0, _, _, by unfold gauss; rw [if_neg he]⟩

/-- **C48** Gaussian numbers come in pairs: the second call returns the number stored by the first one, uses no further uniform
numbers, and leaves the store empty. -/
theorem C48_gauss_pair {fuel : ℕ} {r r' : Rng} {v : ℝ} (he : r.empty = true) (h : gauss fuel r = some (v, r')) (fuel' : ℕ) :
    gauss fuel' r' = some (r'.gset, ⟨r'.s, r'.gset, true⟩) := by
  obtain ⟨_, _, _, _, _, h1⟩ := C48_gauss_defined he h
  unfold gauss
  rw [if_neg (by rw [h1]; decide)]

/-- **C48** A seed word 0 is the same as the default value of that word. -/
theorem C48_zero_seeds (a : S) : init a = init ⟨if a.x = 0 then 123456789 else a.x, if a.y = 0 then 362436069 else a.y,
    if a.z = 0 then 521288629 else a.z, if a.w = 0 then 88675123 else a.w⟩ := by
  obtain ⟨x, y, z, w⟩ := a
  have e : ∀ (v d : U32), d ≠ 0 → (if (if v = 0 then d else v) = 0 then d else (if v = 0 then d else v)) = if v = 0 then d else v := by
    intro v d hd
    by_cases h : v = 0
    · rw [if_pos h, if_neg hd]
    · rw [if_neg h, if_neg h]
  unfold init
  simp only
  rw [e _ _ (by decide), e _ _ (by decide), e _ _ (by decide), e _ _ (by decide)]

example : ∃ n, n < 2 ^ 128 - 1 ∧ step^[n] (init ⟨0, 0, 0, 0⟩) = ⟨1, 2, 3, 4⟩ := (C48_all_states _ _ (by decide)).exists

example : ∃ fuel v r', gauss fuel (Rng.new ⟨1, 2, 3, 4⟩) = some (v, r') := C48_gauss_terminates _ (C48_never_zero _ 0)

end Verif.Rng
