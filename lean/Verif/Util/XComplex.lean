import Mathlib.Analysis.Complex.Trigonometric
import Mathlib.Analysis.SpecialFunctions.Trigonometric.Basic
import Mathlib.Analysis.SpecialFunctions.Sqrt
import Mathlib.Tactic.FieldSimp
import Mathlib.Tactic.LinearCombination

/-!
# C82: the classes of complex numbers and of vectors

`xcomplex<T>` (levels/cxxsupport/ls_xcomplex.h) and `vec3_t<T>` (levels/cxxsupport/ls_vec3.h) over exact real numbers.  The member
functions that change an object take their operands by reference, so they are modelled on a memory in which operands may share
storage with the object (`z *= z.re`); the others return new objects.
-/

namespace Verif.Cpx

/-- `xcomplex<T>`: the members `re` and `im`, ls_xcomplex.h:61-62. -/
@[ext] structure XC where
  re : ℝ
  im : ℝ

/-- The number an object stands for. -/
def XC.val (x : XC) : ℂ := ⟨x.re, x.im⟩

/-- `xcomplex (const T &re_)`, ls_xcomplex.h:70-71. -/
def ofReal (r : ℝ) : XC := ⟨r, 0⟩

/-- `operator+`, ls_xcomplex.h:145-146. -/
def add (a b : XC) : XC := ⟨a.re + b.re, a.im + b.im⟩

/-- `operator-`, ls_xcomplex.h:148-149. -/
def sub (a b : XC) : XC := ⟨a.re - b.re, a.im - b.im⟩

/-- unary `operator-`, ls_xcomplex.h:151-152. -/
def neg (a : XC) : XC := ⟨-a.re, -a.im⟩

/-- `operator* (xcomplex)`, ls_xcomplex.h:136-137. -/
def mul (a b : XC) : XC := ⟨a.re * b.re - a.im * b.im, a.re * b.im + a.im * b.re⟩

/-- `operator* (T)`, ls_xcomplex.h:133-134. -/
def mulReal (a : XC) (f : ℝ) : XC := ⟨a.re * f, a.im * f⟩

/-- `T * xcomplex`, ls_xcomplex.h:204-206. -/
def realMul (f : ℝ) (a : XC) : XC := ⟨f * a.re, f * a.im⟩

/-- `std::complex` division (of the standard library; exact arithmetic, division by zero gives zero here). -/
noncomputable def stdDiv (a b : XC) : XC :=
  ⟨(a.re * b.re + a.im * b.im) / (b.re * b.re + b.im * b.im), (a.im * b.re - a.re * b.im) / (b.re * b.re + b.im * b.im)⟩

/-- `operator/ (xcomplex)`, ls_xcomplex.h:139-140. -/
noncomputable def div (a b : XC) : XC := stdDiv a b

/-- `operator/ (T)`, ls_xcomplex.h:142-143. -/
noncomputable def divReal (a : XC) (d : ℝ) : XC := ⟨a.re / d, a.im / d⟩

/-- `T / xcomplex`, ls_xcomplex.h:209-211. -/
noncomputable def realDiv (f : ℝ) (a : XC) : XC := div (ofReal f) a

/-- `conj`, ls_xcomplex.h:168-169 and 182-183. -/
def conj (a : XC) : XC := ⟨a.re, -a.im⟩

/-- `times_i`, ls_xcomplex.h:172-173. -/
def timesI (a : XC) : XC := ⟨-a.im, a.re⟩

/-- `norm`, ls_xcomplex.h:176-177 and 186-187. -/
def norm (a : XC) : ℝ := a.re * a.re + a.im * a.im

/-! ## functions that change an object -/

/-- Memory cells of type `T`. -/
abbrev Mem := ℕ → ℝ

/-- The object at address `p`: its members are two consecutive cells. -/
def load (m : Mem) (p : ℕ) : XC := ⟨m p, m (p + 1)⟩

/-- Assignment to a cell. -/
def st (m : Mem) (a : ℕ) (v : ℝ) : Mem := fun b => if b = a then v else m b

/-- The changing members, called on the object at `p`; `q` is the address of a complex operand, `a`, `b` of real ones
(a temporary is a cell like any other). -/
inductive Op where
  | assign (p q : ℕ)
  | assignReal (p a : ℕ)
  | set (p a b : ℕ)
  | add (p q : ℕ)
  | sub (p q : ℕ)
  | mul (p q : ℕ)
  | div (p q : ℕ)
  | mulReal (p a : ℕ)
  | divReal (p a : ℕ)
  | negate (p : ℕ)
  | conjugate (p : ℕ)
  | rotate (p : ℕ) (angle : ℝ)

/-- The object called. -/
def Op.target : Op → ℕ
  | .assign p _ | .assignReal p _ | .set p _ _ | .add p _ | .sub p _ | .mul p _ | .div p _ | .mulReal p _ | .divReal p _
  | .negate p | .conjugate p | .rotate p _ => p

/-- Execution, statement by statement. -/
noncomputable def Op.run : Op → Mem → Mem
  -- ls_xcomplex.h:97-98
  | .assign p q, m => let m := st m p (m q); st m (p + 1) (m (q + 1))
  -- :103-104
  | .assignReal p a, m => let m := st m p (m a); st m (p + 1) 0
  -- :93-94
  | .set p a b, m => let m := st m p (m a); st m (p + 1) (m b)
  -- :106-107
  | .add p q, m => let m := st m p (m p + m q); st m (p + 1) (m (p + 1) + m (q + 1))
  -- :109-110
  | .sub p q, m => let m := st m p (m p - m q); st m (p + 1) (m (p + 1) - m (q + 1))
  -- :112-117
  | .mul p q, m =>
    let tr := m p * m q - m (p + 1) * m (q + 1)
    let ti := m p * m (q + 1) + m (p + 1) * m q
    let m := st m p tr
    st m (p + 1) ti
  -- :119-125
  | .div p q, m =>
    let tmp := stdDiv (load m p) (load m q)
    let m := st m p tmp.re
    st m (p + 1) tmp.im
  -- :127-128; the factor is a reference
  | .mulReal p a, m => let m := st m p (m p * m a); st m (p + 1) (m (p + 1) * m a)
  -- :130-131
  | .divReal p a, m => let m := st m p (m p / m a); st m (p + 1) (m (p + 1) / m a)
  -- :155-156
  | .negate p, m => let m := st m p (-m p); st m (p + 1) (-m (p + 1))
  -- :158-159
  | .conjugate p, m => st m (p + 1) (-m (p + 1))
  -- :161-166
  | .rotate p angle, m =>
    let ca := Real.cos angle
    let sa := Real.sin angle
    let tmp := m p
    let m := st m p (tmp * ca - m (p + 1) * sa)
    st m (p + 1) (tmp * sa + m (p + 1) * ca)

/-! ## specification -/

/-- The documented result, in terms of the operands before the call. -/
noncomputable def Op.value (m : Mem) : Op → ℂ
  | .assign _ q => (load m q).val
  | .assignReal _ a => (m a : ℂ)
  | .set _ a b => ⟨m a, m b⟩
  | .add p q => (load m p).val + (load m q).val
  | .sub p q => (load m p).val - (load m q).val
  | .mul p q => (load m p).val * (load m q).val
  | .div p q => (load m p).val / (load m q).val
  | .mulReal p a => (load m p).val * (m a : ℂ)
  | .divReal p a => (load m p).val / (m a : ℂ)
  | .negate p => -(load m p).val
  | .conjugate p => (starRingEnd ℂ) (load m p).val
  | .rotate p angle => (load m p).val * Complex.exp (angle * Complex.I)

/-- Two objects are the same or have no cell in common. -/
def Objects (p q : ℕ) : Prop := q = p ∨ (q ≠ p + 1 ∧ p ≠ q + 1)

/-- C++ objects do not overlap in part. -/
def Op.Legal : Op → Prop
  | .assign p q | .add p q | .sub p q | .mul p q | .div p q => Objects p q
  | _ => True

/-- No real operand is the real part of the object itself (for `Set`: the second one). -/
def Op.Apart : Op → Prop
  | .set p _ b => b ≠ p
  | .mulReal p a | .divReal p a => a ≠ p
  | _ => True

/-- The operation does what is documented, and changes nothing else. -/
def Op.Correct (o : Op) (m : Mem) : Prop :=
  (load (o.run m) o.target).val = o.value m ∧ ∀ a, a ≠ o.target → a ≠ o.target + 1 → o.run m a = m a

/-! ## proofs -/

theorem val_inj {a b : XC} : a.val = b.val ↔ a = b := by
  constructor
  · intro h
    have h1 := congrArg Complex.re h
    have h2 := congrArg Complex.im h
    exact XC.ext h1 h2
  · rintro rfl; rfl

/-- C82, operators that return a new number: they are the operations of the complex numbers. -/
theorem C82_operators (a b : XC) (f : ℝ) :
    (add a b).val = a.val + b.val ∧ (sub a b).val = a.val - b.val ∧ (neg a).val = -a.val ∧ (mul a b).val = a.val * b.val ∧
    (mulReal a f).val = a.val * f ∧ (realMul f a).val = f * a.val ∧ (div a b).val = a.val / b.val ∧
    (divReal a f).val = a.val / f ∧ (realDiv f a).val = f / a.val ∧ (conj a).val = (starRingEnd ℂ) a.val ∧
    (timesI a).val = a.val * Complex.I ∧ norm a = Complex.normSq a.val ∧ norm a = ‖a.val‖ ^ 2 := by
  have hdiv : ∀ a b : XC, (div a b).val = a.val / b.val := by
    intro a b
    apply Complex.ext <;>
      simp only [div, stdDiv, XC.val, Complex.div_re, Complex.div_im, Complex.normSq_mk] <;> ring
  refine ⟨?_, ?_, ?_, ?_, ?_, ?_, hdiv a b, ?_, ?_, ?_, ?_, ?_, ?_⟩
  · rfl
  · rfl
  · rfl
  · rfl
  · apply Complex.ext <;> simp [mulReal, XC.val]
  · apply Complex.ext <;> simp [realMul, XC.val]
  · apply Complex.ext
    · simp [divReal, XC.val, Complex.div_ofReal_re]
    · simp [divReal, XC.val, Complex.div_ofReal_im]
  · have := hdiv (ofReal f) a
    exact this
  · rfl
  · apply Complex.ext <;> simp [timesI, XC.val]
  · simp [norm, XC.val, Complex.normSq_mk]
  · rw [← Complex.normSq_eq_norm_sq]; simp [norm, XC.val, Complex.normSq_mk]

/-- C82, functions that change a number: correct whenever no real operand is the number's own real part; complex operands may be
the number itself. -/
theorem C82_changes_partial (o : Op) (m : Mem) (hl : o.Legal) (ha : o.Apart) : o.Correct m := by
  have key : ∀ p : ℕ, p ≠ p + 1 := fun p => by omega
  have key2 : ∀ p : ℕ, p + 1 ≠ p := fun p => by omega
  constructor
  · cases o with
    | rotate p angle =>
      have h1 : Complex.exp (angle * Complex.I) = ⟨Real.cos angle, Real.sin angle⟩ := by
        apply Complex.ext
        · rw [Complex.exp_ofReal_mul_I_re]
        · rw [Complex.exp_ofReal_mul_I_im]
      simp only [Op.value, h1]
      apply Complex.ext <;> simp [Op.run, Op.target, load, st, XC.val]
    | div p q =>
      have := (C82_operators (load m p) (load m q) 0).2.2.2.2.2.2.1
      simp only [Op.value, ← this]
      simp [Op.run, Op.target, load, st, XC.val, div]
    | divReal p a =>
      have ha : a ≠ p := ha
      have := (C82_operators (load m p) (load m p) (m a)).2.2.2.2.2.2.2.1
      simp only [Op.value, ← this]
      simp [Op.run, Op.target, load, st, XC.val, divReal, ha]
    | mulReal p a =>
      have ha : a ≠ p := ha
      have := (C82_operators (load m p) (load m p) (m a)).2.2.2.2.1
      simp only [Op.value, ← this]
      simp [Op.run, Op.target, load, st, XC.val, mulReal, ha]
    | set p a b =>
      have ha : b ≠ p := ha
      simp [Op.value, Op.run, Op.target, load, st, XC.val, ha]
    | assignReal p a => apply Complex.ext <;> simp [Op.value, Op.run, Op.target, load, st, XC.val]
    | negate p => apply Complex.ext <;> simp [Op.value, Op.run, Op.target, load, st, XC.val]
    | conjugate p => apply Complex.ext <;> simp [Op.value, Op.run, Op.target, load, st, XC.val]
    | assign p q =>
      have hl : Objects p q := hl
      have h : q + 1 ≠ p := by rcases hl with rfl | ⟨-, h⟩ <;> omega
      apply Complex.ext <;> simp [Op.value, Op.run, Op.target, load, st, XC.val, h]
    | add p q =>
      have hl : Objects p q := hl
      have h : q + 1 ≠ p := by rcases hl with rfl | ⟨-, h⟩ <;> omega
      apply Complex.ext <;> simp [Op.value, Op.run, Op.target, load, st, XC.val, h]
    | sub p q =>
      have hl : Objects p q := hl
      have h : q + 1 ≠ p := by rcases hl with rfl | ⟨-, h⟩ <;> omega
      apply Complex.ext <;> simp [Op.value, Op.run, Op.target, load, st, XC.val, h]
    | mul p q => apply Complex.ext <;> simp [Op.value, Op.run, Op.target, load, st, XC.val]
  · intro a h1 h2
    cases o <;> simp only [Op.target] at h1 h2 <;> simp [Op.run, st, h1, h2]

/-- C82, as the class promises it. -/
def C82_Full : Prop := ∀ (o : Op) (m : Mem), o.Legal → o.Correct m

/-- C82, a number scaled by its own real part: the factor changes before the imaginary part is scaled.  The result is right only
if the imaginary part is zero or the real part is 0 or 1. -/
theorem C82_own_factor (p : ℕ) (m : Mem) :
    (load ((Op.mulReal p p).run m) p) = ⟨m p * m p, m (p + 1) * (m p * m p)⟩ ∧
    (((Op.mulReal p p).Correct m) ↔ m (p + 1) = 0 ∨ m p = 0 ∨ m p = 1) := by
  have h1 : (load ((Op.mulReal p p).run m) p) = ⟨m p * m p, m (p + 1) * (m p * m p)⟩ := by
    simp [Op.run, load, st]
  refine ⟨h1, ?_⟩
  unfold Op.Correct
  have e : Op.value m (.mulReal p p) = (mulReal (load m p) (m p)).val :=
    ((C82_operators (load m p) (load m p) (m p)).2.2.2.2.1).symm
  have hrest : ∀ a, a ≠ (Op.mulReal p p).target → a ≠ (Op.mulReal p p).target + 1 → (Op.mulReal p p).run m a = m a := by
    intro a h1 h2
    simp only [Op.target] at h1 h2
    simp [Op.run, st, h1, h2]
  rw [and_iff_left hrest, e, val_inj]
  show load ((Op.mulReal p p).run m) p = _ ↔ _
  rw [h1]
  simp only [mulReal, load, XC.mk.injEq, true_and]
  constructor
  · intro h
    have : m (p + 1) * (m p * (m p - 1)) = 0 := by linear_combination h
    rcases mul_eq_zero.mp this with h | h
    · exact Or.inl h
    · rcases mul_eq_zero.mp h with h | h
      · exact Or.inr (Or.inl h)
      · exact Or.inr (Or.inr (by linarith))
  · rintro (h | h | h) <;> rw [h] <;> ring

/-- C82, a number divided by its own real part. -/
theorem C82_own_divisor (p : ℕ) (m : Mem) (h : m p ≠ 0) :
    load ((Op.divReal p p).run m) p = ⟨1, m (p + 1)⟩ := by
  simp [Op.run, load, st, h]

/-- C82, `z.Set(z.im, z.re)` does not exchange the parts. -/
theorem C82_set_exchange (p : ℕ) (m : Mem) :
    load ((Op.set p (p + 1) p).run m) p = ⟨m (p + 1), m (p + 1)⟩ := by
  simp [Op.run, load, st]

theorem C82_full_refuted : ¬ C82_Full := by
  intro h
  have := (C82_own_factor 0 (fun _ => 2)).2.mp (h (.mulReal 0 0) _ trivial)
  norm_num at this

/-- A number multiplied by itself is legal and gives the square. -/
example : (load ((Op.mul 0 0).run (fun a => if a = 0 then 1 else 2)) 0).val = (⟨1, 2⟩ : ℂ) * ⟨1, 2⟩ :=
  (C82_changes_partial (.mul 0 0) _ (Or.inl rfl) trivial).1

/-- Scaling by the imaginary part is fine. -/
example : (load ((Op.mulReal 0 1).run (fun a => if a = 0 then 1 else 2)) 0).val = (⟨1, 2⟩ : ℂ) * (2 : ℝ) :=
  (C82_changes_partial (.mulReal 0 1) _ trivial (by show 1 ≠ 0; decide)).1

/-! ## vectors -/

/-- `vec3_t<T>`, ls_vec3.h:48-50. -/
@[ext] structure V3 where
  x : ℝ
  y : ℝ
  z : ℝ

/-- `operator+`, `+=`, ls_vec3.h:102-106. -/
def V3.add (a b : V3) : V3 := ⟨a.x + b.x, a.y + b.y, a.z + b.z⟩

/-- `operator-`, `-=`, ls_vec3.h:108-112. -/
def V3.sub (a b : V3) : V3 := ⟨a.x - b.x, a.y - b.y, a.z - b.z⟩

/-- unary `-`, `Flip`, ls_vec3.h:96-100. -/
def V3.neg (a : V3) : V3 := ⟨-a.x, -a.y, -a.z⟩

/-- `operator*`, `*=` (the factor is passed by value), ls_vec3.h:114-115, 120-121. -/
def V3.scale (a : V3) (f : ℝ) : V3 := ⟨a.x * f, a.y * f, a.z * f⟩

/-- `operator/`, ls_vec3.h:117-118. -/
noncomputable def V3.div (a : V3) (f : ℝ) : V3 := let xfact := 1 / f; ⟨a.x * xfact, a.y * xfact, a.z * xfact⟩

/-- `dotprod`, ls_vec3.h:126-127. -/
def dotprod (a b : V3) : ℝ := a.x * b.x + a.y * b.y + a.z * b.z

/-- `crossprod`, ls_vec3.h:131-133. -/
def crossprod (a b : V3) : V3 := ⟨a.y * b.z - a.z * b.y, a.z * b.x - a.x * b.z, a.x * b.y - a.y * b.x⟩

/-- `SquaredLength`, ls_vec3.h:93-94. -/
def V3.squaredLength (a : V3) : ℝ := a.x * a.x + a.y * a.y + a.z * a.z

/-- `Length`, ls_vec3.h:89-90. -/
noncomputable def V3.length (a : V3) : ℝ := √(a.x * a.x + a.y * a.y + a.z * a.z)

/-- `Normalize`, `Norm`, ls_vec3.h:74-86. -/
noncomputable def V3.normalize (a : V3) : V3 :=
  let l := 1 / √(a.x * a.x + a.y * a.y + a.z * a.z)
  ⟨a.x * l, a.y * l, a.z * l⟩

/-- `set_z_phi`, ls_vec3.h:64-71. -/
noncomputable def zPhi (z phi : ℝ) : V3 :=
  let sintheta := √((1 - z) * (1 + z))
  ⟨sintheta * Real.cos phi, sintheta * Real.sin phi, z⟩

/-- C82, products: the cross product is orthogonal to both factors and right-handed, its length is the area spanned, and the
products are bilinear. -/
theorem C82_products (a b c : V3) (f : ℝ) :
    dotprod a (crossprod a b) = 0 ∧ dotprod b (crossprod a b) = 0 ∧ crossprod ⟨1, 0, 0⟩ ⟨0, 1, 0⟩ = ⟨0, 0, 1⟩ ∧
    (crossprod a b).squaredLength = a.squaredLength * b.squaredLength - dotprod a b ^ 2 ∧
    crossprod b a = (crossprod a b).neg ∧ crossprod (a.add b) c = (crossprod a c).add (crossprod b c) ∧
    crossprod (a.scale f) b = (crossprod a b).scale f ∧ dotprod a b = dotprod b a ∧
    dotprod (a.add b) c = dotprod a c + dotprod b c ∧ dotprod (a.scale f) b = f * dotprod a b ∧
    (a.sub b).add b = a ∧ dotprod a a = a.squaredLength := by
  refine ⟨?_, ?_, ?_, ?_, ?_, ?_, ?_, ?_, ?_, ?_, ?_, rfl⟩ <;>
    first
    | (simp only [dotprod, crossprod, V3.squaredLength, V3.add, V3.scale]; ring1)
    | (apply V3.ext <;> simp only [crossprod, V3.neg, V3.add, V3.sub, V3.scale] <;> ring1)

theorem squaredLength_nonneg (a : V3) : 0 ≤ a.squaredLength := by
  unfold V3.squaredLength
  nlinarith [mul_self_nonneg a.x, mul_self_nonneg a.y, mul_self_nonneg a.z]

theorem squaredLength_eq_zero {a : V3} (h : a.squaredLength = 0) : a = ⟨0, 0, 0⟩ := by
  unfold V3.squaredLength at h
  have hx := mul_self_nonneg a.x
  have hy := mul_self_nonneg a.y
  have hz := mul_self_nonneg a.z
  apply V3.ext
  · exact mul_self_eq_zero.mp (by linarith)
  · exact mul_self_eq_zero.mp (by linarith)
  · exact mul_self_eq_zero.mp (by linarith)

/-- C82, lengths: `Length` is the root of `SquaredLength`; a vector that is not zero is `Length` times its normalised version, which
has length 1; `set_z_phi` gives a unit vector for every `z` between -1 and 1. -/
theorem C82_lengths (a : V3) (ha : a ≠ ⟨0, 0, 0⟩) (z phi : ℝ) (hz : -1 ≤ z) (hz' : z ≤ 1) :
    0 < a.length ∧ a.length ^ 2 = a.squaredLength ∧ a.normalize.length = 1 ∧ a.normalize.scale a.length = a ∧
    (zPhi z phi).length = 1 ∧ (zPhi z phi).z = z ∧
    (zPhi z phi).x * Real.sin phi = (zPhi z phi).y * Real.cos phi ∧
    0 ≤ (zPhi z phi).x * Real.cos phi + (zPhi z phi).y * Real.sin phi := by
  have h0 := squaredLength_nonneg a
  have hpos : 0 < a.squaredLength := lt_of_le_of_ne h0 (fun h => ha (squaredLength_eq_zero h.symm))
  have hl : a.length = √a.squaredLength := rfl
  have hsq : a.length ^ 2 = a.squaredLength := by rw [hl, Real.sq_sqrt h0]
  have hlp : 0 < a.length := by rw [hl]; exact Real.sqrt_pos.mpr hpos
  have hne : a.length ≠ 0 := ne_of_gt hlp
  have hs : √((1 - z) * (1 + z)) ^ 2 = (1 - z) * (1 + z) := Real.sq_sqrt (by nlinarith)
  have hcs := Real.cos_sq_add_sin_sq phi
  refine ⟨hlp, hsq, ?_, ?_, ?_, rfl, ?_, ?_⟩
  · have e : a.normalize.squaredLength = a.squaredLength / a.length ^ 2 := by
      show a.x * (1 / a.length) * (a.x * (1 / a.length)) + a.y * (1 / a.length) * (a.y * (1 / a.length)) +
        a.z * (1 / a.length) * (a.z * (1 / a.length)) = _
      unfold V3.squaredLength
      field_simp
    rw [hsq, div_self (ne_of_gt hpos)] at e
    show √a.normalize.squaredLength = 1
    rw [e, Real.sqrt_one]
  · have e : a.normalize = ⟨a.x * (1 / a.length), a.y * (1 / a.length), a.z * (1 / a.length)⟩ := rfl
    rw [e]
    apply V3.ext <;> simp only [V3.scale] <;> field_simp
  · unfold V3.length zPhi
    dsimp only
    rw [show √((1 - z) * (1 + z)) * Real.cos phi * (√((1 - z) * (1 + z)) * Real.cos phi) +
      √((1 - z) * (1 + z)) * Real.sin phi * (√((1 - z) * (1 + z)) * Real.sin phi) + z * z = 1 by
        linear_combination (Real.cos phi ^ 2 + Real.sin phi ^ 2) * hs + (1 - z) * (1 + z) * hcs]
    exact Real.sqrt_one
  · unfold zPhi; dsimp only; ring
  · unfold zPhi; dsimp only
    rw [show √((1 - z) * (1 + z)) * Real.cos phi * Real.cos phi + √((1 - z) * (1 + z)) * Real.sin phi * Real.sin phi =
      √((1 - z) * (1 + z)) by linear_combination √((1 - z) * (1 + z)) * hcs]
    exact Real.sqrt_nonneg _

/-- C82, scaling of vectors: division undoes multiplication, and scaling multiplies the length. -/
theorem C82_scaling (a : V3) (f : ℝ) : (f ≠ 0 → (a.div f).scale f = a ∧ (a.scale f).div f = a) ∧ (a.scale f).length = |f| * a.length ∧
    a.neg.length = a.length := by
  refine ⟨fun h => ⟨?_, ?_⟩, ?_, ?_⟩
  · apply V3.ext <;> simp only [V3.div, V3.scale] <;> field_simp
  · apply V3.ext <;> simp only [V3.div, V3.scale] <;> field_simp
  · unfold V3.length V3.scale
    rw [← Real.sqrt_sq_eq_abs, ← Real.sqrt_mul (sq_nonneg f)]
    congr 1; ring
  · unfold V3.length V3.neg
    congr 1; ring

/-- C82, the zero vector cannot be normalised (in floating point the result is NaN; in the exact model of division it stays zero). -/
theorem C82_normalize_zero : (⟨0, 0, 0⟩ : V3).normalize = ⟨0, 0, 0⟩ ∧ (⟨0, 0, 0⟩ : V3).normalize.length ≠ 1 := by
  refine ⟨by simp [V3.normalize], ?_⟩
  simp [V3.normalize, V3.length]

/-- A vector that is not zero. -/
example : (⟨3, 0, 4⟩ : V3).normalize.length = 1 :=
  (C82_lengths ⟨3, 0, 4⟩ (fun h => by have := congrArg V3.x h; norm_num at this) 0 0 (by norm_num) (by norm_num)).2.2.1

end Verif.Cpx
